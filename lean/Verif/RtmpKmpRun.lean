import Verif.RtmpKmpRead

/-!
# RTMP to KMP: the messages of a track
-/

namespace Verif.RtmpKmp

open Verif.Rtmp (Msg)
open Verif.RtmpKmpSpec (Tag readTag Item Said packets times Near Steady infoOf Fits Carries AllCarry)

/-- The messages of one track. -/
def trackAvs (c : Conf) (t : Track) : List Input → Res Track
  | [] => .ok t
  | x :: l => trackAv c t x.msg x.codec x.created >>= fun t => trackAvs c t l

/-- The new base, samples and time. -/
def sync (video : Bool) (c : Conf) (info : Option Info) (base : Int) (samples : Nat) (dts : Int) : Int × Nat × Int :=
  if video then (base, samples, dts)
  else ((syncAudio c { video, info, base, samples } dts).1.base, (syncAudio c { video, info, base, samples } dts).1.samples, (syncAudio c { video, info, base, samples } dts).2)

def withSync (t : Track) (x : Int × Nat × Int) : Track × Int := ({ t with base := x.1, samples := x.2.1 }, x.2.2)

theorem syncAudio_eq (c : Conf) (t : Track) (dts : Int) : syncAudio c t dts = withSync t (sync false c t.info t.base t.samples dts) := by
  unfold sync withSync
  rw [if_neg (by decide)]
  unfold syncAudio
  obtain ⟨video, ts, last, base, samples, synced, infoSent, published, info, extra, out⟩ := t
  rcases info with _ | ⟨_ | _⟩
  · rfl
  · rfl
  · simp only []
    split
    · rfl
    · split
      · rfl
      · split <;> rfl

/-- The times of the frames with data. -/
def dtsRun (video : Bool) (c : Conf) : Option Info → Int → Nat → Bool → List Item → List Int
  | _, _, _, _, [] => []
  | info, base, samples, told, x :: l =>
    match x.tag with
    | .config _ => dtsRun video c info base samples false l
    | .frame _ _ d =>
      if d = [] then dtsRun video c info base samples told l
      else
        (sync video c info base samples (x.time * (c.timescale / 1000 : Nat))).2.2 ::
          dtsRun video c (if told then info else some x.info) (sync video c info base samples (x.time * (c.timescale / 1000 : Nat))).1
            (sync video c info base samples (x.time * (c.timescale / 1000 : Nat))).2.1 true l

theorem mediaInfo_eq {video : Bool} {c : Conf} {k : Codec} (h : Fits k) : mediaInfo video c k = infoOf video c.timescale k := by
  obtain ⟨h1, h2, h3, h4, h5, h6, h7, h8, h9, h10, h11, h12⟩ := h
  unfold mediaInfo infoOf
  rw [Nat.mod_eq_of_lt h1, Nat.mod_eq_of_lt h2, Nat.mod_eq_of_lt h3, Nat.mod_eq_of_lt h4, Nat.mod_eq_of_lt h5, Nat.mod_eq_of_lt h6, Nat.mod_eq_of_lt h7, Nat.mod_eq_of_lt h8,
    Nat.mod_eq_of_lt h9, Nat.mod_eq_of_lt h10, Nat.mod_eq_of_lt h11, Nat.mod_eq_of_lt h12]

/-- The next times can be told. -/
def TimeOk (t : Track) (ts : List Int) : Prop := if t.synced then t.last = i32 t.ts ∧ Near t.ts ts else Steady ts

theorem i32_mod (x : Int) : i32 (x % 2 ^ 32) = i32 x := by unfold i32; omega

theorem nowrap {d : Int} (h1 : -2 ^ 31 < d) (h2 : d < 2 ^ 31) : ¬ (d < -2 ^ 31 ∨ 2 ^ 31 ≤ d) := by omega

theorem frameTime_eq {c : Conf} {t : Track} {m : Msg} {y : Int} {ts : List Int} {video : Bool} (ht : m.type = if video then 9 else 8) (hy : (m.timestamp : Int) = y % 2 ^ 32)
    (hok : TimeOk t (y :: ts)) : frameTime c t m = .ok (withSync { t with synced := true, ts := y, last := i32 y } (sync video c t.info t.base t.samples (y * (c.timescale / 1000 : Nat)))) ∧ Near y ts := by
  have hnow : ∀ z : Track, z.ts = y → z.info = t.info → z.base = t.base → z.samples = t.samples →
      (if m.type = 8 then syncAudio c z (z.ts * (c.timescale / 1000 : Nat)) else (z, z.ts * (c.timescale / 1000 : Nat))) =
        withSync z (sync video c t.info t.base t.samples (y * (c.timescale / 1000 : Nat))) := by
    intro z h1 h2 h3 h4
    cases video with
    | true =>
      simp only [if_true] at ht
      rw [if_neg (by omega), ← h1, ← h3, ← h4]
      rfl
    | false =>
      simp only [Bool.false_eq_true, if_false] at ht
      rw [if_pos ht, syncAudio_eq, h1, h2, h3, h4]
  unfold TimeOk at hok
  unfold frameTime
  simp only []
  by_cases hs : t.synced = true
  · rw [if_pos hs] at hok ⊢
    obtain ⟨hl, ⟨n1, n2⟩, n3, n4⟩ := hok
    have hd : i32 m.timestamp - t.last = y - t.ts := by
      rw [hy, i32_mod, hl]
      unfold i32
      omega
    have hno : ¬ (y - t.ts < -2 ^ 31 ∨ 2 ^ 31 ≤ y - t.ts) := nowrap n1 n2
    have hi : i32 m.timestamp = i32 y := by rw [hy, i32_mod]
    have hy2 : t.ts + (y - t.ts) = y := by omega
    rw [hd, if_neg hno, Res.bind_ok, hi, hy2, hs]
    exact ⟨congrArg Res.ok (hnow { t with synced := true, ts := y, last := i32 y } rfl rfl rfl rfl), n4⟩
  · rw [if_neg hs] at hok ⊢
    obtain ⟨⟨n1, n2⟩, n4⟩ := hok
    have e : (m.timestamp : Int) = y := by omega
    refine ⟨?_, n4⟩
    rw [Res.bind_ok, hnow { t with synced := true, ts := m.timestamp, last := i32 m.timestamp } e rfl rfl rfl, e]

/-- The track is where the receiver is. -/
def At (video : Bool) (t : Track) (s : Said) : Prop := t.video = video ∧ t.extra = s.extra ∧ t.infoSent = s.told ∧ t.published = s.published

theorem flatten_ne {l : List Bytes} (h : l.flatten ≠ []) : l ≠ [] := by
  intro e; subst e; exact h rfl

theorem readTag_ne {video : Bool} {p : Bytes} {tag : Tag} (h : readTag video p = some tag) : p ≠ [] := by
  intro e; subst e
  cases video <;> simp [readTag, RtmpKmpSpec.readVideo, RtmpKmpSpec.readAudio] at h

theorem trackAv_config {video : Bool} {c : Conf} {t : Track} {x : Input} {y : Item} {d : Bytes} (hs : c.timescale / 1000 ≤ 255) (h : Carries video c.timescale x y)
    (hy : y.tag = .config d) : trackAv c t x.msg x.codec x.created = .ok { t with extra := d, infoSent := false } := by
  obtain ⟨h1, h2, h3, h4, h5, -, -⟩ := h
  rw [hy] at h5
  obtain ⟨hd, e, e1, e2, e3⟩ := readHead_eq hs h1 h3 h4 h5
  unfold trackAv
  rw [if_neg (flatten_ne (readTag_ne h5)), e, Res.bind_ok, if_pos e1]
  by_cases hz : hd.size = 0
  · rw [if_pos hz]
    have : d = [] := List.length_eq_zero_iff.1 (by omega)
    rw [this]
  · rw [if_neg hz]
    obtain ⟨r, f1, -⟩ := copy_eq hd.rest (n := hd.size) (by omega) (by rw [e3]; omega)
    rw [f1]
    simp only []
    rw [e3, e2, List.take_length]

theorem trackAv_empty {video : Bool} {c : Conf} {t : Track} {x : Input} {y : Item} {key : Bool} {delay : Int} (hs : c.timescale / 1000 ≤ 255) (h : Carries video c.timescale x y)
    (hy : y.tag = .frame key delay []) : trackAv c t x.msg x.codec x.created = .ok t := by
  obtain ⟨h1, h2, h3, h4, h5, -, -⟩ := h
  rw [hy] at h5
  obtain ⟨hd, e, e1, e2, e3⟩ := readHead_eq hs h1 h3 h4 h5
  unfold trackAv
  rw [if_neg (flatten_ne (readTag_ne h5)), e, Res.bind_ok, if_neg (by simp [e1]), if_pos (by simp [e2])]

theorem trackAv_frame {video : Bool} {c : Conf} {t : Track} {x : Input} {y : Item} {key : Bool} {delay : Int} {d : Bytes} {ts : List Int} {s : Said}
    (hs : c.timescale / 1000 ≤ 255) (h : Carries video c.timescale x y) (hy : y.tag = .frame key delay d) (hd : d ≠ []) (hok : TimeOk t (y.time :: ts)) (ha : At video t s) :
    Near y.time ts ∧ ∃ t', trackAv c t x.msg x.codec x.created = .ok t' ∧ At video t' { s with told := true, published := true } ∧ t'.synced = true ∧ t'.ts = y.time ∧
      t'.last = i32 y.time ∧ t'.info = (if s.told then t.info else some y.info) ∧
      t'.base = (sync video c t.info t.base t.samples (y.time * (c.timescale / 1000 : Nat))).1 ∧
      t'.samples = (sync video c t.info t.base t.samples (y.time * (c.timescale / 1000 : Nat))).2.1 ∧
      t'.out = t.out ++ ((if s.told then [] else [.info y.info s.extra]) ++ (if s.published then [] else [.publish]) ++
        [.frame ⟨y.created, (sync video c t.info t.base t.samples (y.time * (c.timescale / 1000 : Nat))).2.2, if key then 1 else 0, delay * (c.timescale / 1000 : Nat), d.length, d⟩]) := by
  obtain ⟨h1, h2, h3, h4, h5, h6, k, k1, k2, k3⟩ := h
  rw [hy] at h5
  obtain ⟨hd', e, e1, e2, e3, e4, e5⟩ := readHead_eq hs h1 h3 h4 h5
  obtain ⟨a1, a2, a3, a4⟩ := ha
  obtain ⟨f1, f2⟩ := frameTime_eq (c := c) (video := video) h1 h2 hok
  refine ⟨f2, ?_⟩
  unfold trackAv
  have hz : hd'.size ≠ 0 := by rw [e2]; have := List.length_pos_iff.2 hd; omega
  have hr : hd'.rest ≠ [] := flatten_ne (by rw [e3]; exact hd)
  rw [if_neg (flatten_ne (readTag_ne h5)), e, Res.bind_ok, if_neg (by simp [e1]), if_neg hz, f1, Res.bind_ok, k1]
  simp only [withSync, e2, e3, e4, e5, h6, a1, mediaInfo_eq k2, k3, a2, a3, a4, if_neg hr]
  obtain ⟨extra, told, published⟩ := s
  cases told <;> cases published <;> simp only [Res.bind_ok, Bool.false_eq_true, if_false, if_true] <;>
    refine ⟨_, rfl, ⟨?_, ?_, ?_, ?_⟩, ?_, ?_, ?_, ?_, ?_, ?_, ?_⟩ <;>
      first | rfl | simp only [List.append_assoc, List.nil_append]

/-- What is sent for the messages of a track. -/
theorem track_run {video : Bool} {c : Conf} (hs : c.timescale / 1000 ≤ 255) : ∀ (xs : List Input) (ys : List Item) (t : Track) (s : Said), AllCarry video c.timescale xs ys → At video t s →
    TimeOk t (times ys) → ∃ t', trackAvs c t xs = .ok t' ∧
      t'.out = t.out ++ packets (c.timescale / 1000) s ys (dtsRun video c t.info t.base t.samples s.told ys) := by
  intro xs
  induction xs with
  | nil =>
    intro ys t s h1 h2 h3
    cases ys with
    | nil => exact ⟨t, rfl, by simp [packets]⟩
    | cons => exact h1.elim
  | cons x xs ih =>
    intro ys t s h1 h2 h3
    cases ys with
    | nil => exact h1.elim
    | cons y ys =>
      obtain ⟨hc, hr⟩ := h1
      unfold trackAvs
      cases hy : y.tag with
      | config d =>
        rw [trackAv_config hs hc hy, Res.bind_ok]
        have hf : y.full = false := by unfold Item.full; rw [hy]
        have ht : times (y :: ys) = times ys := by simp [times, hf]
        rw [ht] at h3
        obtain ⟨t', g1, g2⟩ := ih ys { t with extra := d, infoSent := false } { s with extra := d, told := false } hr ⟨h2.1, rfl, rfl, h2.2.2.2⟩ h3
        refine ⟨t', g1, ?_⟩
        rw [g2]
        simp only [packets, dtsRun, hy]
      | frame key delay d =>
        by_cases hd : d = []
        · subst hd
          rw [trackAv_empty hs hc hy, Res.bind_ok]
          have hf : y.full = false := by unfold Item.full; rw [hy]; rfl
          have ht : times (y :: ys) = times ys := by simp [times, hf]
          rw [ht] at h3
          obtain ⟨t', g1, g2⟩ := ih ys t s hr h2 h3
          refine ⟨t', g1, ?_⟩
          rw [g2]
          simp only [packets, dtsRun, hy, if_true]
        · have hf : y.full = true := by unfold Item.full; rw [hy]; simp [hd]
          have ht : times (y :: ys) = y.time :: times ys := by simp [times, hf]
          rw [ht] at h3
          obtain ⟨n, t1, g, a, b1, b2, b3, b4, b5, b6, b7⟩ := trackAv_frame hs hc hy hd h3 h2
          rw [g, Res.bind_ok]
          have h3' : TimeOk t1 (times ys) := by unfold TimeOk; rw [if_pos b1, b2, b3]; exact ⟨rfl, n⟩
          obtain ⟨t', g1, g2⟩ := ih ys t1 _ hr a h3'
          refine ⟨t', g1, ?_⟩
          rw [g2, b4, b5, b6, b7]
          simp only [packets, dtsRun, hy, if_neg hd, List.headD_cons, List.tail_cons, List.append_assoc]

/-! ## Streams -/

/-- The tracks of a stream do not touch each other. -/
theorem avs_eq {c : Conf} : ∀ (xs : List Input) (s : Strm) (v a : Track),
    trackAvs c (s.video.getD { video := true }) (xs.filter fun x => x.msg.type == 9) = .ok v →
    trackAvs c (s.audio.getD { video := false }) (xs.filter fun x => x.msg.type == 8) = .ok a →
    ∃ s', avs c s xs = .ok s' ∧ s'.video.getD { video := true } = v ∧ s'.audio.getD { video := false } = a := by
  intro xs
  induction xs with
  | nil =>
    intro s v a h1 h2
    simp only [List.filter_nil, trackAvs, Res.ok.injEq] at h1 h2
    exact ⟨s, rfl, h1, h2⟩
  | cons x xs ih =>
    intro s v a h1 h2
    unfold avs av
    by_cases h9 : x.msg.type = 9
    · rw [if_pos h9]
      rw [List.filter_cons_of_pos (by simp [h9])] at h1
      rw [List.filter_cons_of_neg (by simp [h9])] at h2
      unfold trackAvs at h1
      cases hv : trackAv c (s.video.getD { video := true }) x.msg x.codec x.created with
      | ok t =>
        rw [hv, Res.bind_ok] at h1
        rw [Res.map_ok, Res.bind_ok]
        exact ih _ v a h1 h2
      | err => rw [hv] at h1; exact absurd h1 (by simp)
      | ub => rw [hv] at h1; exact absurd h1 (by simp)
    · rw [if_neg h9]
      rw [List.filter_cons_of_neg (by simp [h9])] at h1
      by_cases h8 : x.msg.type = 8
      · rw [if_pos h8]
        rw [List.filter_cons_of_pos (by simp [h8])] at h2
        unfold trackAvs at h2
        cases hv : trackAv c (s.audio.getD { video := false }) x.msg x.codec x.created with
        | ok t =>
          rw [hv, Res.bind_ok] at h2
          rw [Res.map_ok, Res.bind_ok]
          exact ih _ v a h1 h2
        | err => rw [hv] at h2; exact absurd h2 (by simp)
        | ub => rw [hv] at h2; exact absurd h2 (by simp)
      · rw [if_neg h8, Res.bind_ok]
        rw [List.filter_cons_of_neg (by simp [h8])] at h2
        exact ih s v a h1 h2

end Verif.RtmpKmp
