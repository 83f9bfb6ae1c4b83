import Verif.TsNalSets
import Verif.TsAacFrames

/-!
# C81: times of frames
-/

namespace Verif.TsKmp

/-- The times that a clock gives. -/
def stamps (k : Clock) : List Int → List Int
  | [] => []
  | d :: ds => (k.step d).timestamp :: stamps (k.step d) ds

/-- A time is not before the one it follows, and less than 2^33 ticks (26 hours) after it. -/
def Follows : Int → List Int → Prop
  | _, [] => True
  | t, t' :: ts => t ≤ t' ∧ t' < t + 8589934592 ∧ Follows t' ts

/-- The times are sent modulo 2^33. -/
def Sent : List Int → List Int → Prop
  | [], [] => True
  | t :: ts, d :: ds => d % 8589934592 = t % 8589934592 ∧ Sent ts ds
  | _, _ => False

theorem stamps_synced {ts ds : List Int} {t d : Int} (k : Clock) (hk : k.synced = true) (hl : k.last % 8589934592 = t % 8589934592) (h : Follows t ts)
    (hs : Sent ts ds) (hd : d = k.timestamp - t) : stamps k ds = ts.map (· + d) := by
  induction ts generalizing k ds t with
  | nil =>
    cases ds with
    | nil => rfl
    | cons _ _ => exact hs.elim
  | cons t' ts ih =>
    cases ds with
    | nil => exact hs.elim
    | cons x ds =>
      obtain ⟨h1, h2, h3⟩ := h
      obtain ⟨h4, h5⟩ := hs
      have he : k.step x = { synced := true, timestamp := k.timestamp + (t' - t), last := x } := by
        rw [Clock.step, if_pos hk, hk]
        congr 1
        omega
      rw [stamps, he, List.map_cons, ih (t := t') _ rfl h4 h3 h5 (by show d = k.timestamp + (t' - t) - t'; omega)]
      congr 1
      show k.timestamp + (t' - t) = t' + d
      omega

/-- The times of frames are those that were sent, from the first of them on: they do not wrap. -/
theorem stamps_first (t d : Int) (ts ds : List Int) (h : Follows t ts) (hs : Sent (t :: ts) (d :: ds)) :
    stamps {} (d :: ds) = (t :: ts).map (· + (d - t)) := by
  have he : ({} : Clock).step d = { synced := true, timestamp := d, last := d } := rfl
  rw [stamps, he, List.map_cons, stamps_synced (t := t) (d := d - t) _ rfl hs.1 h hs.2 rfl]
  congr 1
  show d = t + (d - t)
  omega

/-- A delay below 2^31 ticks (6 hours) is exact though both times are sent modulo 2^33. -/
theorem delay_exact (pts dts : Int) (h1 : -2147483648 ≤ pts - dts) (h2 : pts - dts < 2147483648) :
    int32 (pts % 8589934592 - dts % 8589934592) = pts - dts := by
  rw [int32]
  omega

/-! ## Video -/

/-- The times and the delays of the frames. -/
def frameTimes (out : List Out) : List (Int × Int) :=
  out.filterMap fun o => match o with | .frame _ dts d _ => some (dts, d) | .info _ => none

theorem frameTimes_append (a b : List Out) : frameTimes (a ++ b) = frameTimes a ++ frameTimes b := List.filterMap_append ..

theorem handle_clock {c : Codec} {t t' : Track} {n : List UInt8} (h : handle c t n = .ok t') :
    t'.clock = t.clock ∧ t'.out = t.out ∧ ∀ x ∈ t.types, x ∈ t'.types := by
  have hsei : (seeSei c t n).clock = t.clock ∧ (seeSei c t n).out = t.out ∧ (seeSei c t n).types = t.types := by
    unfold seeSei
    repeat' split
    all_goals exact ⟨rfl, rfl, rfl⟩
  rw [handle] at h
  split at h
  · rw [keepPs] at h
    split at h
    · cases h
    · split at h
      · split at h
        · cases h
          exact ⟨hsei.1, hsei.2.1, fun x hx => by rw [hsei.2.2]; exact hx⟩
        · cases h
          exact ⟨hsei.1, hsei.2.1, fun x hx => by show x ∈ (seeSei c t n).types; rw [hsei.2.2]; exact hx⟩
      · split at h
        · cases h
        · cases h
          exact ⟨hsei.1, hsei.2.1, fun x hx => by
            show x ∈ _ :: (seeSei c t n).types
            rw [hsei.2.2]; exact List.mem_cons_of_mem _ hx⟩
  · cases h
    exact ⟨hsei.1, hsei.2.1, fun x hx => by rw [hsei.2.2]; exact hx⟩

theorem handleAll_clock {c : Codec} {ns : List (List UInt8)} {t t' : Track} (h : handleAll c t ns = .ok t') :
    t'.clock = t.clock ∧ t'.out = t.out ∧ ∀ x ∈ t.types, x ∈ t'.types := by
  induction ns generalizing t with
  | nil => cases h; exact ⟨rfl, rfl, fun _ hx => hx⟩
  | cons n ns ih =>
    rw [handleAll] at h
    cases h1 : handle c t n with
    | ok t1 =>
      rw [h1] at h
      obtain ⟨a1, a2, a3⟩ := handle_clock h1
      obtain ⟨b1, b2, b3⟩ := ih h
      exact ⟨b1.trans a1, b2.trans a2, fun x hx => b3 x (a3 x hx)⟩
    | err => rw [h1] at h; cases h
    | ub => rw [h1] at h; cases h

theorem video_time {c : Codec} {ns : List (List UInt8)} {t t' : Track} {pts dts : Int} (ht : ∀ x ∈ c.save, x ∈ t.types)
    (h : videoNals c t ns pts dts = .ok t') :
    t'.clock = t.clock.step dts ∧ frameTimes t'.out = frameTimes t.out ++ [((t.clock.step dts).timestamp, int32 (pts - dts))] ∧
      ∀ x ∈ c.save, x ∈ t'.types := by
  rw [videoNals] at h
  cases h1 : handleAll c t ns with
  | err => rw [h1] at h; cases h
  | ub => rw [h1] at h; cases h
  | ok t1 =>
    obtain ⟨a1, a2, a3⟩ := handleAll_clock h1
    rw [h1, Res.bind_ok] at h
    split at h
    · cases h
    · have hall : c.save.all (fun x => x ∈ t1.types) = true := by
        rw [List.all_eq_true]
        intro x hx
        exact decide_eq_true (a3 x (ht x hx))
      rw [mediaInfo] at h
      split at h
      · rw [Res.bind_ok] at h
        cases h
        refine ⟨by rw [← a1], ?_, fun x hx => a3 x (ht x hx)⟩
        rw [frameTimes_append, a1, a2]
        rfl
      · split at h
        · cases h
        · rw [Res.bind_ok] at h
          cases h
          refine ⟨by rw [← a1], ?_, fun x hx => a3 x (ht x hx)⟩
          rw [frameTimes_append, frameTimes_append, ← a1, a2]
          simp [frameTimes]

theorem runVideo_times {c : Codec} {ps : List (Chain × Int × Int)} {t t' : Track} (ht : ∀ x ∈ c.save, x ∈ t.types)
    (hne : ∀ p ∈ ps, ∀ b ∈ p.1, b ≠ []) (h : runVideo c t ps = .ok t') :
    frameTimes t'.out = frameTimes t.out ++ (stamps t.clock (ps.map fun p => p.2.2)).zip (ps.map fun p => int32 (p.2.1 - p.2.2)) := by
  induction ps generalizing t with
  | nil => cases h; simp [stamps]
  | cons p ps ih =>
    obtain ⟨chain, pts, dts⟩ := p
    rw [runVideo, videoPes_nals _ _ _ _ _ (hne _ (List.mem_cons_self ..))] at h
    cases h1 : videoNals c t (NalSpec.cut 0 none chain.flatten) pts dts with
    | err => rw [h1] at h; cases h
    | ub => rw [h1] at h; cases h
    | ok t1 =>
      rw [h1, Res.bind_ok] at h
      obtain ⟨a1, a2, a3⟩ := video_time ht h1
      rw [ih a3 (fun p hp => hne p (List.mem_cons_of_mem _ hp)) h, a2, a1, List.append_assoc]
      rfl

/-- A PES packet with its true times: they are sent modulo 2^33. -/
structure Timed where
  chain : Chain
  pts : Int
  dts : Int

def Timed.sent (p : Timed) : Chain × Int × Int := (p.chain, p.pts % 8589934592, p.dts % 8589934592)

/-- C81 for video: from the first frame on, the times of the frames of a track are those of the packets, without wrapping, and so are the
delays, when no packet is before the one it follows or 26 hours after, and the delays are below 6 hours. Missing: decoding times that go back,
see TsKmpCases. -/
theorem video_times_are_kept_partial (c : Codec) (t t' : Track) (p : Timed) (ps : List Timed) (ht : ∀ x ∈ c.save, x ∈ t.types)
    (hfirst : t.clock = {}) (hne : ∀ q ∈ p :: ps, ∀ b ∈ q.chain, b ≠ []) (hf : Follows p.dts (ps.map Timed.dts))
    (hd : ∀ q ∈ p :: ps, -2147483648 ≤ q.pts - q.dts ∧ q.pts - q.dts < 2147483648) (h : runVideo c t ((p :: ps).map Timed.sent) = .ok t') :
    frameTimes t'.out = frameTimes t.out ++ (p :: ps).map fun q => (q.dts - p.dts + p.dts % 8589934592, q.pts - q.dts) := by
  rw [runVideo_times ht (fun q hq => by
    obtain ⟨r, hr, rfl⟩ := List.mem_map.mp hq
    exact hne r hr) h, hfirst]
  congr 1
  have h1 : ((p :: ps).map Timed.sent).map (fun q => q.2.2) = (p :: ps).map fun q => q.dts % 8589934592 := by
    rw [List.map_map]; rfl
  have h2 : ((p :: ps).map Timed.sent).map (fun q => int32 (q.2.1 - q.2.2)) = (p :: ps).map fun q => q.pts - q.dts := by
    rw [List.map_map]
    apply List.map_congr_left
    intro q hq
    exact delay_exact _ _ (hd q hq).1 (hd q hq).2
  have h3 : ∀ l : List Timed, Sent (l.map Timed.dts) (l.map fun q => q.dts % 8589934592) := by
    intro l
    induction l with
    | nil => trivial
    | cons x xs ih => exact ⟨Int.emod_emod_of_dvd _ (Int.dvd_refl _), ih⟩
  rw [h1, h2, List.map_cons, stamps_first p.dts _ (ps.map Timed.dts) _ hf (h3 (p :: ps)), ← List.map_cons, List.map_map]
  rw [List.zip_map', List.map_congr_left]
  intro q _
  simp only [Function.comp, Prod.mk.injEq, and_true]
  omega

/-! ## Audio -/

/-- The times of the frames. -/
def audioTimes (out : List AOut) : List Int := out.filterMap fun o => match o with | .frame dts _ => some dts | .info _ => none

theorem expected_times (last : Option (Nat × Nat × Nat × Nat)) (k : Clock) (l : List (AdtsSpec.Frame × Nat)) :
    audioTimes (expected last k l) = stamps k (l.map fun x => (x.2 : Int)) := by
  induction l generalizing last k with
  | nil => rfl
  | cons x xs ih =>
    obtain ⟨f, time⟩ := x
    rw [expected, List.map_cons, stamps, ← ih (some (conf f)) (k.step time)]
    simp only [audioTimes, List.filterMap_append]
    split <;> rfl

/-- The times of the frames of a packet when it has a true time. -/
def trueTimes (p : Packet × Int) : List Int := (timed 0 0 p.1.frames).map fun x => p.2 + x.2

theorem timed_shift (pts s : Nat) (fs : List AdtsSpec.Frame) : (timed pts s fs).map (fun x => (x.2 : Int)) = (timed 0 s fs).map fun x => (pts : Int) + x.2 := by
  induction fs generalizing s with
  | nil => rfl
  | cons f fs ih =>
    rw [timed, timed, List.map_cons, List.map_cons, ih]
    simp only [Nat.zero_add, Int.natCast_add]

theorem sent_append {a b c d : List Int} (h1 : Sent a b) (h2 : Sent c d) : Sent (a ++ c) (b ++ d) := by
  induction a generalizing b with
  | nil =>
    cases b with
    | nil => exact h2
    | cons _ _ => exact h1.elim
  | cons x xs ih =>
    cases b with
    | nil => exact h1.elim
    | cons y ys => exact ⟨h1.1, ih h1.2⟩

theorem sent_shift (a b : Int) (l : List (AdtsSpec.Frame × Nat)) (h : b % 8589934592 = a % 8589934592) :
    Sent (l.map fun x => a + x.2) (l.map fun x => b + x.2) := by
  induction l with
  | nil => trivial
  | cons x xs ih => exact ⟨by show (b + x.2) % _ = (a + x.2) % _; omega, ih⟩

/-- C81 for audio: the times of the frames are those of the packets, and of the samples before in the packets, without wrapping, up to the one
multiple of 2^33 ticks that the time of the first frame lacks, when no frame is before the one it follows or 26 hours after. -/
theorem audio_times_are_kept_partial (ps : List (Packet × Int)) (hp : ∀ p ∈ ps, p.1.Whole) (hs : ∀ p ∈ ps, (p.1.pts : Int) = p.2 % 8589934592)
    (first : Int) (rest : List Int) (ht : ps.flatMap trueTimes = first :: rest) (hf : Follows first rest) :
    ∃ t' start, runAudio {} (ps.map Prod.fst) = .ok t' ∧ start % 8589934592 = first % 8589934592 ∧
      audioTimes t'.out = (first :: rest).map fun x => x - first + start := by
  obtain ⟨t', h1, h2⟩ := aac_frames_are_received_partial (ps.map Prod.fst) (fun p hp' => by
    obtain ⟨q, hq, rfl⟩ := List.mem_map.mp hp'
    exact hp q hq)
  have h3 : Sent (ps.flatMap trueTimes) ((ps.flatMap fun p => timed p.1.pts 0 p.1.frames).map fun x => (x.2 : Int)) := by
    clear h1 h2 ht hf hp
    induction ps with
    | nil => trivial
    | cons p ps ih =>
      rw [List.flatMap_cons, List.flatMap_cons, List.map_append, timed_shift]
      refine sent_append (sent_shift _ _ _ ?_) (ih fun q hq => hs q (List.mem_cons_of_mem _ hq))
      have := hs p (List.mem_cons_self ..)
      omega
  rw [ht] at h3
  have h4 : audioTimes t'.out = stamps {} ((ps.flatMap fun p => timed p.1.pts 0 p.1.frames).map fun x => (x.2 : Int)) := by
    rw [h2, expected_times, List.flatMap_map]
  generalize (ps.flatMap fun p => timed p.1.pts 0 p.1.frames).map (fun x => (x.2 : Int)) = ds at h3 h4
  cases ds with
  | nil => exact h3.elim
  | cons d ds =>
    refine ⟨t', d, h1, h3.1, ?_⟩
    rw [h4, stamps_first first d rest ds hf h3]
    apply List.map_congr_left
    intro x _
    show x + (d - first) = x - first + d
    omega

end Verif.TsKmp
