import Verif.RtmpKmpTrip
import Verif.KmpRtmpCases

/-!
# RTMP to KMP: cases
-/

namespace Verif.RtmpKmp

open Verif.Rtmp (Msg Cfg Run Waits newSess flatH T3)
open Verif.RtmpSpec (Mess)
open Verif.KmpRtmp (Ev Env Connect txt e0 cn0 meta0 evs0 g1 msOf outOf)
open Verif.KmpRtmpSpec (messages)
open Verif.RtmpKmpSpec

deriving instance DecidableEq for Res

def conf0 : Conf := ⟨90000, 2⟩

def codec0 : Codec := ⟨640, 360, (30, 1), 500, 7, 0, 128, 10, 44100, 2, 2⟩

def vin (time : Nat) (data : List Bytes) : Input := ⟨⟨6, time, data.flatten.length, 9, 1, data⟩, some codec0, 7⟩

def ain (time : Nat) (data : List Bytes) : Input := ⟨⟨4, time, data.flatten.length, 8, 1, data⟩, some codec0, 7⟩

def vitem (time : Int) (tag : Tag) : Item := ⟨tag, time, infoOf true 90000 codec0, 7⟩

def aitem (time : Int) (tag : Tag) : Item := ⟨tag, time, infoOf false 90000 codec0, 7⟩

theorem fits0 : Fits codec0 := by unfold Fits codec0; decide

/-! ## C114 -/

/-- The configuration is cut inside the header of its tag, and empty buffers are there; the second frame is told a time that is less; the fourth is empty; the last is
behind 2 ^ 32 ms. -/
def ins0 : List Input :=
  [vin 0 [[0x17, 0], [0, 0], [0, 1, 2], []], ain 0 [[0xaf, 0, 18, 16]], vin 4294967000 [[0x17], [1, 0, 0, 80, 5], [6]], ain 4294967000 [[0xaf, 1, 9]],
    vin 4294966990 [[0x27, 1, 0xff, 0xff, 0xf6, 8]], ain 4294967023 [[0xaf], [1, 10]], vin 4294967050 [[0x27, 1, 0, 0, 0]], vin 4 [[0x91, 0x68, 0x76, 0x63, 0x31, 0, 0, 1, 7]]]

def vids0 : List Item :=
  [vitem 0 (.config [1, 2]), vitem 4294967000 (.frame true 80 [5, 6]), vitem 4294966990 (.frame false (-10) [8]), vitem 4294967050 (.frame false 0 []),
    vitem 4294967300 (.frame true 1 [7])]

def auds0 : List Item := [aitem 0 (.config [18, 16]), aitem 4294967000 (.frame false 0 [9]), aitem 4294967023 (.frame false 0 [10])]

theorem vids0_carry : AllCarry true 90000 (ins0.filter fun x => x.msg.type == 9) vids0 :=
  ⟨⟨rfl, by decide, by decide, by decide, by decide, rfl, _, rfl, fits0, rfl⟩, ⟨rfl, by decide, by decide, by decide, by decide, rfl, _, rfl, fits0, rfl⟩,
    ⟨rfl, by decide, by decide, by decide, by decide, rfl, _, rfl, fits0, rfl⟩, ⟨rfl, by decide, by decide, by decide, by decide, rfl, _, rfl, fits0, rfl⟩,
    ⟨rfl, by decide, by decide, by decide, by decide, rfl, _, rfl, fits0, rfl⟩, trivial⟩

theorem auds0_carry : AllCarry false 90000 (ins0.filter fun x => x.msg.type == 8) auds0 :=
  ⟨⟨rfl, by decide, by decide, by decide, by decide, rfl, _, rfl, fits0, rfl⟩, ⟨rfl, by decide, by decide, by decide, by decide, rfl, _, rfl, fits0, rfl⟩,
    ⟨rfl, by decide, by decide, by decide, by decide, rfl, _, rfl, fits0, rfl⟩, trivial⟩

/-- The hypotheses of `stream_partial`. -/
example : conf0.timescale / 1000 ≤ 255 ∧ AllCarry true conf0.timescale (ins0.filter fun x => x.msg.type == 9) vids0 ∧
    AllCarry false conf0.timescale (ins0.filter fun x => x.msg.type == 8) auds0 ∧ Steady (times vids0) ∧ Steady (times auds0) := by
  refine ⟨by decide, vids0_carry, auds0_carry, ?_, ?_⟩
  · show (_ ∧ _) ∧ (_ ∧ _) ∧ _ ∧ (_ ∧ _) ∧ _ ∧ True
    decide
  · show (_ ∧ _) ∧ (_ ∧ _) ∧ _ ∧ True
    decide

def outs (r : Res Strm) : Option (List Out × List Out) :=
  match r with
  | .ok s => some (s.videoOut, s.audioOut)
  | _ => none

/-- What is sent. -/
example : outs (avs conf0 {} ins0) = some
    ([.info (infoOf true 90000 codec0) [1, 2], .publish, .frame ⟨7, 386547030000, 1, 7200, 2, [5, 6]⟩, .frame ⟨7, 386547029100, 0, -900, 1, [8]⟩,
      .frame ⟨7, 386547057000, 1, 90, 1, [7]⟩],
     [.info (infoOf false 90000 codec0) [18, 16], .publish, .frame ⟨7, 386547030000, 0, 0, 1, [9]⟩, .frame ⟨7, 386547032070, 0, 0, 1, [10]⟩]) := by decide +kernel

/-- C114 for all times that do not go more than 2 ^ 31 ms forth or back. -/
def AnyTimes : Prop := ∀ (c : Conf) (xs : List Input) (vids auds : List Item), c.timescale / 1000 ≤ 255 →
  AllCarry true c.timescale (xs.filter fun x => x.msg.type == 9) vids → AllCarry false c.timescale (xs.filter fun x => x.msg.type == 8) auds →
  (∀ ts ∈ [times vids, times auds], (∀ t, ts.head? = some t → 0 ≤ t ∧ t < 2 ^ 32) ∧ ∀ p ∈ ts.zip ts.tail, -2 ^ 31 < p.2 - p.1 ∧ p.2 - p.1 < 2 ^ 31) →
  ∃ s, avs c {} xs = .ok s ∧ s.videoOut = packets (c.timescale / 1000) {} vids ((times vids).map (· * ((c.timescale / 1000 : Nat) : Int)))

def insWrap : List Input := [vin 2147483647 [[0x17, 1, 0, 0, 0, 5]], vin 2147483648 [[0x27, 1, 0, 0, 0, 6]]]

/-- After 24.8 days the difference of two times overflows. -/
theorem not_any_times : ¬ AnyTimes := by
  intro h
  obtain ⟨s, h1, -⟩ := h conf0 insWrap [vitem 2147483647 (.frame true 0 [5]), vitem 2147483648 (.frame false 0 [6])] [] (by decide)
    ⟨⟨rfl, by decide, by decide, by decide, by decide, rfl, _, rfl, fits0, rfl⟩, ⟨rfl, by decide, by decide, by decide, by decide, rfl, _, rfl, fits0, rfl⟩, trivial⟩ trivial
    (by decide)
  have h2 : (avs conf0 {} insWrap) = .ub := by decide +kernel
  rw [h2] at h1
  cases h1

/-! ## C115 -/

def auds1 : List Item := [aitem 0 (.config [18, 16]), aitem 1000 (.frame false 0 [9]), aitem 1023 (.frame false 0 [10]), aitem 1046 (.frame false 0 [11]), aitem 1069 (.frame false 0 [12])]

def ins1 : List Input := [ain 0 [[0xaf, 0, 18, 16]], ain 1000 [[0xaf, 1, 9]], ain 1023 [[0xaf, 1], [10]], ain 1046 [[0xaf, 1], [11]], ain 1069 [[0xaf, 1, 12]]]

theorem auds1_carry : AllCarry false 90000 (ins1.filter fun x => x.msg.type == 8) auds1 :=
  ⟨⟨rfl, by decide, by decide, by decide, by decide, rfl, _, rfl, fits0, rfl⟩, ⟨rfl, by decide, by decide, by decide, by decide, rfl, _, rfl, fits0, rfl⟩,
    ⟨rfl, by decide, by decide, by decide, by decide, rfl, _, rfl, fits0, rfl⟩, ⟨rfl, by decide, by decide, by decide, by decide, rfl, _, rfl, fits0, rfl⟩,
    ⟨rfl, by decide, by decide, by decide, by decide, rfl, _, rfl, fits0, rfl⟩, trivial⟩

theorem auds1_aac : ∀ y ∈ auds1, IsAac 44100 y.info := by
  intro y hy
  simp only [auds1, List.mem_cons, List.not_mem_nil, or_false] at hy
  rcases hy with rfl | rfl | rfl | rfl | rfl <;> exact ⟨rfl, rfl⟩

theorem auds1_times : times auds1 = source 44100 44100000 4 := by decide

theorem auds1_steady : Steady (times auds1) := by
  show (_ ∧ _) ∧ (_ ∧ _) ∧ _ ∧ (_ ∧ _) ∧ _ ∧ (_ ∧ _) ∧ _ ∧ True
  decide

/-- The hypotheses of `aac_partial`, and what it says. -/
example : AllCarry true conf0.timescale (ins1.filter fun x => x.msg.type == 9) [] ∧ AllCarry false conf0.timescale (ins1.filter fun x => x.msg.type == 8) auds1 ∧ Steady (times auds1) ∧
    (∀ y ∈ auds1, IsAac 44100 y.info) ∧ times auds1 = source 44100 44100000 4 ∧ conf0.timescale % 1000 = 0 ∧ conf0.margin * conf0.timescale / 1000 < 2 ^ 32 ∧
    conf0.margin < (44100000 + 1024000) / 44100 := ⟨trivial, auds1_carry, auds1_steady, auds1_aac, auds1_times, by decide, by decide, by decide⟩

example : exact 90000 44100 3 92070 = [92070, 94159, 96249] := by decide

example : (outs (avs conf0 {} ins1)).map (fun x => (shown x.2).map (·.1)) = some [90000, 92070, 94159, 96249] := by decide +kernel

/-- C115 from the first frame on. -/
def Exact : Prop := ∀ (c : Conf) (xs : List Input) (auds : List Item) (rate a n : Nat), c.timescale / 1000 ≤ 255 → c.timescale % 1000 = 0 → 0 < c.timescale → 1 ≤ c.margin →
  c.margin * c.timescale / 1000 < 2 ^ 32 → AllCarry true c.timescale (xs.filter fun x => x.msg.type == 9) [] →
  AllCarry false c.timescale (xs.filter fun x => x.msg.type == 8) auds → Steady (times auds) → rate ≠ 0 → (∀ y ∈ auds, IsAac rate y.info) → times auds = source rate a n →
  ∃ s, avs c {} xs = .ok s ∧ s.audioOut = packets (c.timescale / 1000) {} auds (exact c.timescale rate n ((a / rate * (c.timescale / 1000) : Nat) : Int))

/-- The first frame does not count. -/
theorem not_exact : ¬ Exact := by
  intro h
  obtain ⟨s, h1, h2⟩ := h conf0 ins1 auds1 44100 44100000 4 (by decide) (by decide) (by decide) (by decide) (by decide) trivial auds1_carry auds1_steady (by decide) auds1_aac auds1_times
  have h3 : outs (avs conf0 {} ins1) ≠ some ([], packets 90 {} auds1 (exact 90000 44100 4 90000)) := by decide +kernel
  have h4 : (outs (avs conf0 {} ins1)).map (·.1) = some [] := by decide +kernel
  rw [h1] at h3 h4
  simp only [outs, Option.map_some, Option.some.injEq] at h4
  apply h3
  show some (s.videoOut, s.audioOut) = _
  rw [h4, h2]
  rfl

/-- At the start of a stream the first two frames get the same time, when the margin is not less than a frame. -/
theorem same_start : (outs (avs ⟨90000, 30⟩ {} [ain 0 [[0xaf, 1, 9]], ain 23 [[0xaf, 1, 10]], ain 46 [[0xaf, 1, 11]]])).map (fun x => (shown x.2).map (·.1)) = some [0, 0, 2089] := by
  decide +kernel

/-! ## C116 -/

/-- A message in two chunks. -/
def lenBytes : Bytes := [4, 0, 0, 0, 0, 0, 130, 9, 1, 0, 0, 0] ++ List.replicate 128 5 ++ [0xc4, 6, 7]

def g0 : Cfg := ⟨8, 1000⟩

def lens (r : Res Rtmp.Sess) : Option (List (Nat × List Nat)) :=
  match r with
  | .ok s => some (s.log.map fun m => (m.mlen, m.data.map (·.length)))
  | _ => none

example : lens (KmpRtmp.pour g0 (fun _ => some []) 100 (newSess g0 .off) lenBytes) = some [(130, [128, 2])] := by decide +kernel

/-! ## C117 -/

/-- The hypotheses of `trip_partial`. -/
example : messages e0 cn0 128 4000 evs0 = some (msOf e0 cn0 128 4000 evs0) ∧ (∀ x ∈ msOf e0 cn0 128 4000 evs0, x.1.payload.length < 2 ^ 24 ∧ x.1.payload.length ≤ g1.maxMessage) ∧
    (videoFrames 1 evs0).map (·.dts) = [1000, 1040] ∧ ((ofStream 1 8 ((msOf e0 cn0 128 4000 evs0).map (·.1))).map fun m => (readTag false m.payload, m.ts)) =
      [(some (.config [18, 16]), 0), (some (.frame false 0 [5, 6, 7]), 1010)] := by decide +kernel

/-- What comes back. -/
def back (c : Conf) (k : Codec) (n : Nat) (r : Res Rtmp.Sess) : Option (Res Strm) :=
  match r with
  | .ok s => some (avs c {} ((s.log.filter fun m => m.msid == n).map fun m => ⟨m, some k, 0⟩))
  | _ => none

def backs (c : Conf) (k : Codec) (n : Nat) (bs : Bytes) : Option (Res Strm) := back c k n (KmpRtmp.pour g1 (flatH KmpRtmpSpec.ctl) 1000 (newSess g1 .off) bs)

example : ((backs conf0 codec0 1 (outOf (KmpRtmp.session e0 cn0 128 4000 evs0))).bind outs).map (fun x => shown x.1) =
    some [(90000, 1, 7200, List.replicate 100 1 ++ List.replicate 50 2), (93600, 0, -90, [8, 9])] := by decide +kernel

/-- C117 for all times that do not go more than 2 ^ 31 ms forth or back. -/
def Trips : Prop := ∀ (e : Env) (cn : Connect) (g : Cfg) (size period n : Nat) (vs : List Ev) (ms : List (Mess × Nat)) (c : Conf) (k : Codec), KmpRtmp.EnvOk e → 128 ≤ size →
  size ≤ 10485760 → (∀ v ∈ vs, KmpRtmp.EvOk v) → KmpRtmp.published vs ≤ 60 → KmpRtmp.published vs + 3 < g.maxStreams → messages e cn size period vs = some ms →
  (∀ x ∈ ms, x.1.payload.length < 2 ^ 24 ∧ x.1.payload.length ≤ g.maxMessage) → 1 ≤ n → (∀ id codec f, Ev.frame id codec f ∈ vs → -2 ^ 23 ≤ f.pts ∧ f.pts < 2 ^ 23) →
  ofStream n 8 (ms.map (·.1)) = [] → (∀ f ∈ videoFrames n vs, 0 ≤ f.dts ∧ f.dts < 2 ^ 32) →
  (∀ p ∈ ((videoFrames n vs).map (·.dts)).zip ((videoFrames n vs).map (·.dts)).tail, -2 ^ 31 < p.2 - p.1 ∧ p.2 - p.1 < 2 ^ 31) → c.timescale / 1000 ≤ 255 → Fits k →
  ∀ cc s, KmpRtmp.session e cn size period vs = .ok cc → Run g (flatH KmpRtmpSpec.ctl) (newSess g .off) cc.out s → Waits s →
    ∃ st, avs c {} ((s.log.filter fun m => m.msid == n).map fun m => ⟨m, some k, 0⟩) = .ok st

def wrapEvs : List Ev :=
  [.publish (txt "one"), .start 1 ⟨meta0.video, none⟩, .frame 1 7 ⟨0, 2147483647, 0, 1, 2, [[5, 6]]⟩, .frame 1 7 ⟨0, 2147483648, 0, 0, 2, [[8, 9]]⟩]

theorem wrapEvs_ok : ∀ v ∈ wrapEvs, KmpRtmp.EvOk v := by
  intro v hv
  simp only [wrapEvs, List.mem_cons, List.not_mem_nil, or_false] at hv
  rcases hv with rfl | rfl | rfl | rfl
  · trivial
  · exact ⟨by simp [meta0], by rintro v hv; simp [meta0] at hv; subst hv; exact ⟨rfl, rfl⟩, by simp⟩
  · exact ⟨by simp, by decide +kernel⟩
  · exact ⟨by simp, by decide +kernel⟩

theorem wrap_back : backs conf0 codec0 1 (outOf (KmpRtmp.session e0 cn0 128 0 wrapEvs)) = some .ub := by decide +kernel

theorem wrap_fine : messages e0 cn0 128 0 wrapEvs = some (msOf e0 cn0 128 0 wrapEvs) ∧
    (∀ x ∈ msOf e0 cn0 128 0 wrapEvs, x.1.payload.length < 2 ^ 24 ∧ x.1.payload.length ≤ g1.maxMessage) ∧ ofStream 1 8 ((msOf e0 cn0 128 0 wrapEvs).map (·.1)) = [] ∧
    (∀ f ∈ videoFrames 1 wrapEvs, 0 ≤ f.dts ∧ f.dts < 2 ^ 32) ∧
    ∀ p ∈ ((videoFrames 1 wrapEvs).map (·.dts)).zip ((videoFrames 1 wrapEvs).map (·.dts)).tail, -2 ^ 31 < p.2 - p.1 ∧ p.2 - p.1 < 2 ^ 31 := by decide +kernel

theorem wrap_session : ∃ cc, KmpRtmp.session e0 cn0 128 0 wrapEvs = .ok cc := by
  obtain ⟨cc, h, -⟩ := KmpRtmp.received_partial (g := g1) KmpRtmp.e0_ok cn0 (size := 128) (period := 0) (by omega) (by omega) wrapEvs_ok (by decide) (by decide) wrap_fine.1 wrap_fine.2.1
  exact ⟨cc, h⟩

theorem not_trips : ¬ Trips := by
  intro h
  obtain ⟨cc, hcc⟩ := wrap_session
  have hb := wrap_back
  rw [KmpRtmp.out_eq hcc] at hb
  unfold backs back at hb
  split at hb
  · rename_i s hs
    obtain ⟨r1, r2⟩ := (KmpRtmp.pour_run 1000 (s0 := newSess g1 .off) (Run.init (g := g1) (H := flatH KmpRtmpSpec.ctl))).1 s hs
    obtain ⟨st, h1⟩ := h e0 cn0 g1 128 0 1 wrapEvs _ conf0 codec0 KmpRtmp.e0_ok (by omega) (by omega) wrapEvs_ok (by decide) (by decide) wrap_fine.1 wrap_fine.2.1 (by omega)
      (by
        intro id codec f hf
        simp only [wrapEvs, List.mem_cons, List.not_mem_nil, or_false, reduceCtorEq, false_or, Ev.frame.injEq] at hf
        rcases hf with ⟨-, -, rfl⟩ | ⟨-, -, rfl⟩ <;> decide)
      wrap_fine.2.2.1 wrap_fine.2.2.2.1 wrap_fine.2.2.2.2 (by decide) fits0 cc s hcc (by simpa using r1) r2
    rw [Option.some.injEq, h1] at hb
    cases hb
  · cases hb

end Verif.RtmpKmp
