import Verif.KmpRtmpProps

/-!
# KMP to RTMP: cases
-/

namespace Verif.KmpRtmp

open Verif.RtmpSpec
open Verif.Rtmp (Cfg T3 Sess Run Waits newSess flatH ModeOk Msg.flat Fails Handler iter room)
open Verif.KmpRtmpSpec (St Sp act acts messages ctl connectMess sizeMess)

def e0 : Env := ⟨fun n => [0, 0, 0, 0, 0, 0, 0, UInt8.ofNat n], fun _ => (txt "16-11-2026", txt "20:00:00.000"), fun n => List.replicate n 0xee⟩

theorem e0_ok : EnvOk e0 := ⟨fun _ => rfl, fun n => by simp [e0]⟩

def cn0 : Connect := ⟨txt "live", txt "FMLE/3.0", [], txt "rtmp://host/live", []⟩

def meta0 : Meta := ⟨some ⟨7, 640, 360, ⟨e0.dbl 1, e0.dbl 2⟩, [1, 100, 0, 31, 255]⟩, some ⟨1010, 44100, 16, 2, ⟨e0.dbl 3, []⟩, [18, 16]⟩⟩

/-- A stream with a frame of video in two parts that needs more chunks, one of audio, and another of video. -/
def evs0 : List Ev :=
  [.publish (txt "one"), .sound 1 1010 44100 16 2, .start 1 meta0, .frame 1 7 ⟨0, 1000, 80, 1, 150, [List.replicate 100 1, List.replicate 50 2]⟩,
    .frame 1 1010 ⟨0, 1010, 0, 0, 3, [[5, 6, 7]]⟩, .publish (txt "two"), .frame 1 7 ⟨5000, 1040, -1, 0, 2, [[8], [9]]⟩, .unpublish 1]

theorem evs0_ok : ∀ v ∈ evs0, EvOk v := by
  intro v hv
  simp only [evs0, List.mem_cons, List.not_mem_nil, or_false] at hv
  rcases hv with rfl | rfl | rfl | rfl | rfl | rfl | rfl | rfl
  · trivial
  · trivial
  · exact ⟨by simp [meta0], by rintro v hv; simp [meta0] at hv; subst hv; exact ⟨rfl, rfl⟩, by rintro v hv; simp [meta0] at hv; subst hv; rfl⟩
  · exact ⟨by simp, by decide +kernel⟩
  · exact ⟨by simp, by decide +kernel⟩
  · trivial
  · exact ⟨by simp, by decide +kernel⟩
  · trivial

def msOf (e : Env) (cn : Connect) (size period : Nat) (vs : List Ev) : List (Mess × Nat) := (messages e cn size period vs).getD []

def outOf : Res Conn → Bytes
  | .ok c => c.out
  | _ => []

def g1 : Cfg := ⟨32, 1000000⟩

/-! ## A server -/

/-- The bytes are received as they come: the state of a session that waits, or `err` when it closes the connection. -/
def pour (g : Cfg) (H : Handler) : Nat → Sess → Bytes → Res Sess
  | 0, _, _ => .ub
  | k + 1, s, bs =>
    if s.oldSize ≠ 0 then
      match iter g H s [] with
      | .ok s' => pour g H k s' bs
      | .err => .err
      | _ => .ub
    else if bs = [] then .ok s
    else if room s = 0 then .ub
    else
      match iter g H s (bs.take (room s)) with
      | .ok s' => pour g H k s' (bs.drop (room s))
      | .err => .err
      | _ => .ub

theorem pour_run {g : Cfg} {H : Handler} {s0 : Sess} : ∀ (k : Nat) {s : Sess} {bs b0 : Bytes}, Run g H s0 b0 s →
    (∀ s', pour g H k s bs = .ok s' → Run g H s0 (b0 ++ bs) s' ∧ Waits s') ∧ (pour g H k s bs = .err → ∃ b1 b2, bs = b1 ++ b2 ∧ Fails g H s0 (b0 ++ b1)) := by
  intro k
  induction k with
  | zero => intro s bs b0 _; exact ⟨fun s' h => by simp [pour] at h, fun h => by simp [pour] at h⟩
  | succ k ih =>
    intro s bs b0 hr
    unfold pour
    by_cases h1 : s.oldSize ≠ 0
    · rw [if_pos h1]
      cases hi : iter g H s [] with
      | ok s1 => exact ih (.again hr h1 hi)
      | err => exact ⟨fun s' h => by simp at h, fun _ => ⟨[], bs, rfl, .inl ⟨s, by simpa using hr, h1, hi⟩⟩⟩
      | ub => exact ⟨fun s' h => by simp at h, fun h => by simp at h⟩
    · rw [if_neg h1]
      have hz : s.oldSize = 0 := by simpa using h1
      by_cases h2 : bs = []
      · rw [if_pos h2, h2]
        refine ⟨fun s' h => ?_, fun h => by simp at h⟩
        cases h
        exact ⟨by simpa using hr, hz⟩
      · rw [if_neg h2]
        by_cases h3 : room s = 0
        · rw [if_pos h3]
          exact ⟨fun s' h => by simp at h, fun h => by simp at h⟩
        · rw [if_neg h3]
          have hne : bs.take (room s) ≠ [] := by
            intro h
            have h4 := congrArg List.length h
            rw [List.length_take, List.length_nil] at h4
            have h5 : 0 < bs.length := List.length_pos_iff.2 h2
            omega
          have hle : (bs.take (room s)).length ≤ room s := by rw [List.length_take]; omega
          cases hi : iter g H s (bs.take (room s)) with
          | ok s1 =>
            obtain ⟨a, b⟩ := ih (bs := bs.drop (room s)) (.recv _ hr hz hne hle hi)
            refine ⟨fun s' h => ?_, fun h => ?_⟩
            · have := a s' h
              rw [List.append_assoc, List.take_append_drop] at this
              exact this
            · obtain ⟨b1, b2, c1, c2⟩ := b h
              refine ⟨bs.take (room s) ++ b1, b2, ?_, ?_⟩
              · rw [List.append_assoc, ← c1, List.take_append_drop]
              · rw [← List.append_assoc]
                exact c2
          | err => exact ⟨fun s' h => by simp at h, fun _ => ⟨bs.take (room s), bs.drop (room s), (List.take_append_drop _ _).symm, .inr ⟨b0, _, s, rfl, hr, hz, hne, hle, hi⟩⟩⟩
          | ub => exact ⟨fun s' h => by simp at h, fun h => by simp at h⟩

/-- The messages that a server got. -/
def got (g : Cfg) (t3 : T3) (bs : Bytes) : Option (List Mess) :=
  match pour g (flatH ctl) 1000 (newSess g t3) bs with
  | .ok s => some (s.log.map Msg.flat)
  | _ => none

def closes (g : Cfg) (t3 : T3) (bs : Bytes) : Bool :=
  match pour g (flatH ctl) 1000 (newSess g t3) bs with
  | .err => true
  | _ => false

theorem got_run {g : Cfg} {t3 : T3} {bs : Bytes} {l : List Mess} (h : got g t3 bs = some l) :
    ∃ s, Run g (flatH ctl) (newSess g t3) bs s ∧ Waits s ∧ s.log.map Msg.flat = l := by
  unfold got at h
  split at h
  · rename_i s hs
    have := (pour_run 1000 (s0 := newSess g t3) (Run.init (g := g) (H := flatH ctl))).1 s hs
    exact ⟨s, by simpa using this.1, this.2, by simpa using h⟩
  · simp at h

theorem closes_fails {g : Cfg} {t3 : T3} {bs : Bytes} (h : closes g t3 bs = true) : ∃ b1 b2, bs = b1 ++ b2 ∧ Fails g (flatH ctl) (newSess g t3) b1 := by
  unfold closes at h
  split at h
  · rename_i hs
    have := (pour_run 1000 (s0 := newSess g t3) (Run.init (g := g) (H := flatH ctl))).2 hs
    simpa using this
  · simp at h

/-! ## C110 to C112 -/

/-- The hypotheses of `buffers_fit`, `stream_partial`, `received_partial` and `received_any_partial`. -/
example : messages e0 cn0 128 4000 evs0 = some (msOf e0 cn0 128 4000 evs0) ∧ (msOf e0 cn0 128 4000 evs0).length = 19 ∧ published evs0 = 2 ∧
    (∀ x ∈ msOf e0 cn0 128 4000 evs0, x.1.payload.length < 2 ^ 24 ∧ x.1.payload.length ≤ g1.maxMessage ∧ x.2 < big) := by decide +kernel

example : EnvOk e0 ∧ ∀ v ∈ evs0, EvOk v := ⟨e0_ok, evs0_ok⟩

/-- What the server got. -/
example : got g1 .auto (outOf (session e0 cn0 128 4000 evs0)) = some ((msOf e0 cn0 128 4000 evs0).map (·.1)) ∧
    (outOf (session e0 cn0 128 4000 evs0)).length = 1074 := by decide +kernel

/-- C111 with everything that the specification allows: the extended timestamp is used, and is repeated. -/
def Conform : Prop := ∀ (e : Env) (cn : Connect) (maxId maxLen size period : Nat) (vs : List Ev) (ms : List (Mess × Nat)), EnvOk e → 128 ≤ size → size ≤ 10485760 →
  (∀ v ∈ vs, EvOk v) → published vs ≤ 60 → published vs + 3 < maxId → messages e cn size period vs = some ms →
  (∀ x ∈ ms, x.1.payload.length < 2 ^ 24 ∧ x.1.payload.length ≤ maxLen) →
  ∃ c S, session e cn size period vs = .ok c ∧ Stream ctl ⟨true, true, true, false⟩ maxId maxLen c.out S ∧ S.sent = ms.map (·.1)

/-- C112 for any number of streams. -/
def Received : Prop := ∀ (e : Env) (cn : Connect) (g : Cfg) (size period : Nat) (vs : List Ev) (ms : List (Mess × Nat)), EnvOk e → 128 ≤ size → size ≤ 10485760 →
  (∀ v ∈ vs, EvOk v) → published vs + 3 < g.maxStreams → messages e cn size period vs = some ms →
  (∀ x ∈ ms, x.1.payload.length < 2 ^ 24 ∧ x.1.payload.length ≤ g.maxMessage) →
  ∃ c, session e cn size period vs = .ok c ∧ ∀ s, Run g (flatH ctl) (newSess g .off) c.out s → Waits s → s.log.map Msg.flat = ms.map (·.1)

/-- The first frame of a connection comes after more than four hours, and is longer than a chunk. -/
def lateEvs : List Ev :=
  [.publish (txt "one"), .start 1 ⟨meta0.video, none⟩, .frame 1 7 ⟨0, 0x1000000, 0, 1, 150, [List.replicate 150 1]⟩, .frame 1 7 ⟨0, 0x1000028, 0, 0, 2, [[8, 9]]⟩]

theorem lateEvs_ok : ∀ v ∈ lateEvs, EvOk v := by
  intro v hv
  simp only [lateEvs, List.mem_cons, List.not_mem_nil, or_false] at hv
  rcases hv with rfl | rfl | rfl | rfl
  · trivial
  · exact ⟨by simp [meta0], by rintro v hv; simp [meta0] at hv; subst hv; exact ⟨rfl, rfl⟩, by simp⟩
  · exact ⟨by simp, by decide +kernel⟩
  · exact ⟨by simp, by decide +kernel⟩

theorem out_eq {r : Res Conn} {c : Conn} (h : r = .ok c) : outOf r = c.out := by rw [h]; rfl

/-- The chunks after the first do not repeat the extended timestamp: a server that expects it closes the connection. -/
theorem not_conform : ¬ Conform := by
  intro h
  obtain ⟨c, S, h1, h2, h3⟩ := h e0 cn0 g1.maxStreams g1.maxMessage 128 0 lateEvs (msOf e0 cn0 128 0 lateEvs) e0_ok (by omega) (by omega) lateEvs_ok (by decide) (by decide)
    (by decide +kernel) (by decide +kernel)
  have hc : closes g1 .on (outOf (session e0 cn0 128 0 lateEvs)) = true := by decide +kernel
  rw [out_eq h1] at hc
  obtain ⟨b1, b2, k1, k2⟩ := closes_fails hc
  rw [k1] at h2
  exact Verif.Rtmp.sender_kept_partial (.inr (.inl ⟨rfl, rfl⟩)) rfl h2 k2

/-- One stream more than there are numbers with one byte. -/
def manyEvs : List Ev := (List.range 61).map fun i => .publish [UInt8.ofNat i]

theorem manyEvs_ok : ∀ v ∈ manyEvs, EvOk v := by
  intro v hv
  obtain ⟨i, -, rfl⟩ := List.mem_map.1 hv
  trivial

theorem many_fine : published manyEvs + 3 < 100 ∧ messages e0 cn0 128 0 manyEvs = some (msOf e0 cn0 128 0 manyEvs) ∧
    ∀ x ∈ msOf e0 cn0 128 0 manyEvs, x.1.payload.length < 2 ^ 24 ∧ x.1.payload.length ≤ 1000000 := by decide +kernel

theorem many_count : (msOf e0 cn0 128 0 manyEvs).length = 246 := by decide +kernel

theorem many_got : (got ⟨100, 1000000⟩ .off (outOf (session e0 cn0 128 0 manyEvs))).map (·.length) = some 245 := by decide +kernel

theorem not_received_of {g : Cfg} {vs : List Ev} {ms : List (Mess × Nat)} {n : Nat} (hv : ∀ v ∈ vs, EvOk v) (hp : published vs + 3 < g.maxStreams) (hm : messages e0 cn0 128 0 vs = some ms)
    (hl : ∀ x ∈ ms, x.1.payload.length < 2 ^ 24 ∧ x.1.payload.length ≤ g.maxMessage) (hg : (got g .off (outOf (session e0 cn0 128 0 vs))).map (·.length) = some n) (hn : ms.length ≠ n) :
    ¬ Received := by
  intro h
  obtain ⟨c, h1, h2⟩ := h e0 cn0 g 128 0 vs ms e0_ok (by omega) (by omega) hv hp hm hl
  rw [out_eq h1] at hg
  obtain ⟨l, hl, hlen⟩ := Option.map_eq_some_iff.1 hg
  obtain ⟨s, s1, s2, s3⟩ := got_run hl
  have h4 := h2 s s1 s2
  rw [s3] at h4
  have h5 := congrArg List.length h4
  rw [List.length_map, hlen] at h5
  exact hn h5.symm

/-- The chunk stream of the 61st stream has a number that does not fit into the first byte. -/
theorem not_received : ¬ Received :=
  not_received_of manyEvs_ok many_fine.1 many_fine.2.1 many_fine.2.2 many_got (by rw [many_count]; omega)

/-! ## C113 -/

def sp1 : Sp := { period := 0, count := 1, sts := [{ id := 1, name := txt "one", started := true }] }

/-- The hypotheses of `video_read` and `audio_read`. -/
example : ((act e0 sp1 (.frame 1 7 ⟨0, 1000, -40, 1, 2, [[8], [9]]⟩)).map fun x => x.2.map fun y => (y.1.payload, y.2)) = some [([0x17, 1, 0xff, 0xff, 0xd8, 8, 9], 1000)] ∧
    ((act e0 sp1 (.frame 1 8 ⟨0, 1000, 40, 0, 1, [[8]]⟩)).map fun x => x.2.map fun y => (y.1.payload, y.2)) = some [([0xa1, 0x68, 0x76, 0x63, 0x31, 0, 0, 40, 8], 1000)] ∧
    ((act e0 sp1 (.sound 1 1010 44100 16 2)).bind fun x => (act e0 x.1 (.frame 1 1010 ⟨0, 1000, 0, 0, 1, [[8]]⟩)).map fun x => x.2.map fun y => y.1.payload) =
      some [[0xaf, 1, 8]] := by decide +kernel

end Verif.KmpRtmp
