import Verif.TsNalAvc
import Verif.TsTimes

/-!
# Cases for C78 to C81
-/

namespace Verif.TsKmp.Cases

open NalSpec

/-! ## Video -/

/-- AVC with parsers that are simple: the id of a parameter set is made of its type and of its second byte. -/
def setId : List UInt8 → Option Nat
  | x :: y :: _ => some (x.toNat % 32 * 256 + y.toNat)
  | _ => none

def decode : List UInt8 → Option (Nat × Nat × UInt8 × UInt8 × UInt8)
  | _ :: p :: x :: l :: _ => some (640, 360, p, x, l)
  | _ => none

def codec : Codec := avc setId (fun b => b.length = 3) decode

def sps : List UInt8 := [0x67, 0x64, 0, 0x1f, 0, 0, 3, 1]
def pps : List UInt8 := [0x68, 0, 3]
def pps1 : List UInt8 := [0x68, 1, 5]
def idr : List UInt8 := [0x65, 7, 0, 0, 2, 9]
def slice : List UInt8 := [0x41, 8]

theorem isNal (n : List UInt8) (h : n ≠ [] ∧ ¬ [0, 0, 1] <:+: n ∧ n.getLast? ≠ some 0) : IsNal n := ⟨h.1, h.2.1, h.2.2⟩

example : IsNal sps := isNal _ (by decide)
example : IsNal idr := isNal _ (by decide)

/-- A PES packet with a delimiter, the parameter sets and a picture, in three buffers that divide a start code. -/
def first : Chain := [[0, 0, 0, 1, 0x09, 0xf0, 0, 0, 1] ++ sps ++ [0], [0, 0], [1] ++ pps ++ [0, 0, 1] ++ idr]

def track : Track := match videoPes codec {} first 90000 80000 with | .ok t => t | _ => {}

theorem first_ok : videoPes codec {} first 90000 80000 = .ok track := by decide +kernel

def theInfo : Info := { width := 640, height := 360, extra := avcC 0x64 0 0x1f sps pps, cea := false }

/-- What is written: the media info, and a key frame of the picture alone. -/
theorem first_written : track.out = [.info theInfo, .frame true 80000 10000 ([0, 0, 0, 6] ++ idr)] := by decide +kernel

example : first.flatten = stream [(1, [0x09, 0xf0]), (0, sps), (1, pps), (0, idr)] := by decide +kernel

/-- The hypotheses of C78 are met by a packet that follows. -/
example (pts dts : Int) : ∃ t', videoPes codec track [[0, 0, 0], [1, 0x68, 0, 3, 0, 0, 1, 0x41, 8]] pts dts = .ok t' ∧ t'.sent = true ∧
    t'.saved = track.saved ∧ t'.clock = track.clock.step dts ∧
    t'.out = track.out ++ [.frame false (track.clock.step dts).timestamp (int32 (pts - dts)) [0, 0, 0, 2, 0x41, 8]] :=
  nal_units_become_frames_partial codec track _ [(1, pps), (0, slice)] pts dts (by decide) (by decide +kernel)
    (by
      intro u hu
      simp only [List.mem_cons, List.not_mem_nil, or_false] at hu
      rcases hu with rfl | rfl <;> exact isNal _ (by decide))
    (by decide) (by decide +kernel)
    (by
      intro u hu
      simp only [List.mem_cons, List.not_mem_nil, or_false] at hu
      rcases hu with rfl | rfl
      · exact fun _ => ⟨2048, by decide, by decide +kernel⟩
      · exact fun h => absurd h (by decide))

/-- The full claim of C78. -/
def PacketsBecomeFrames (c : Codec) : Prop :=
  ∀ (t : Track) (chain : Chain) (us : List (Nat × List UInt8)) (zeros : Nat) (pts dts : Int), chain.flatten = stream us ++ List.replicate zeros 0 →
    (∀ u ∈ us, IsNal u.2) → t.sent = true → (∀ u ∈ us, Known c t u.2) →
    ∃ t', videoPes c t chain pts dts = .ok t' ∧ ∃ key dts' delay, t'.out = t.out ++ [.frame key dts' delay
      ((us.filter fun u => c.type u.2 ∉ c.skip).flatMap fun u => lengthed u.2)]

theorem known_slice : Known codec track slice := fun h => absurd h (by decide)

/-- Finding: a frame of 17 NAL units ends the session. -/
theorem seventeen_slices : videoPes codec track [stream (List.replicate 17 (0, slice))] 0 0 = .err := by decide +kernel

/-- Finding: the zeros that may follow the last NAL unit become a part of it. -/
theorem zeros_are_kept : (match videoPes codec track [stream [(0, slice)] ++ [0, 0, 0]] 0 0 with | .ok t => t.out.drop 2 | _ => []) =
    [.frame false 8589934592 0 [0, 0, 0, 5, 0x41, 8, 0, 0, 0]] := by
  decide +kernel

/-- Finding: a buffer without bytes after a start code is read. -/
theorem an_empty_buffer_is_read : videoPes codec track [[0, 0, 0, 1], [], slice] 0 0 = .ub := by decide +kernel

theorem not_packets_become_frames : ¬ PacketsBecomeFrames codec := by
  intro h
  obtain ⟨t', h1, _⟩ := h track [stream (List.replicate 17 (0, slice))] (List.replicate 17 (0, slice)) 0 0 0
    (by simp) (fun u hu => by rw [(List.mem_replicate.mp hu).2]; exact isNal _ (by decide)) (by decide +kernel)
    (fun u hu => by rw [(List.mem_replicate.mp hu).2]; exact known_slice)
  rw [seventeen_slices] at h1
  cases h1

/-! ## Parameter sets -/

/-- The hypotheses of C79 are met: another SPS with the same id comes with the second packet, and is announced before its frame. -/
def sps2 : List UInt8 := [0x67, 0x64, 0, 0x28, 0, 0, 3, 1]
def second : Chain := [stream [(0, sps2), (0, idr)]]

theorem second_written : (match videoPes codec track second 0 0 with | .ok t => t.out.drop 2 | _ => []) =
    [.info { theInfo with extra := avcC 0x64 0 0x28 sps2 pps }, .frame true 8589934592 0 ([0, 0, 0, 6] ++ idr)] := by
  decide +kernel

example : ∃ s p w h pr x l i, LastInfo (match videoPes codec track second 0 0 with | .ok t => t.out | _ => []) i ∧
    ((nalsOf [(first, 90000, 80000), (second, 0, 0)]).filter fun n => (n.headD 0).toNat % 32 = 7).getLast? = some s ∧
    ((nalsOf [(first, 90000, 80000), (second, 0, 0)]).filter fun n => (n.headD 0).toNat % 32 = 8).getLast? = some p ∧
    decode s = some (w, h, pr, x, l) ∧ i.width = w ∧ i.height = h ∧
    i.extra = avcC pr x l s p := by
  have hr : runVideo codec { tries := 10 } [(first, 90000, 80000)] = .ok track := by
    show videoPes codec {} first 90000 80000 >>= (fun t => runVideo codec t []) = _
    rw [first_ok]
    rfl
  cases h2 : videoPes codec track second 0 0 with
  | ub => exact absurd h2 (by decide +kernel)
  | err => exact absurd h2 (by decide +kernel)
  | ok t' =>
    have ho : t'.out ≠ track.out := by
      intro h
      have h3 := second_written
      rw [h2] at h3
      dsimp only at h3
      rw [h, first_written] at h3
      revert h3
      decide
    exact avc_parameter_sets_are_announced_partial _ _ _ 10 [(first, 90000, 80000)] (second, 0, 0) track t' (7 * 256 + 0x64) (8 * 256) (by decide)
      (by decide +kernel) (by decide +kernel) hr h2 ho

/-- The full claim of C79 for AVC: a parameter set that was received last with its id is in the extra data of the media info. -/
def SetsAreAnnounced (c : Codec) : Prop :=
  ∀ (ps : List (Chain × Int × Int)) (t : Track), (∀ q ∈ ps, ∀ b ∈ q.1, b ≠ []) → runVideo c {} ps = .ok t → t.out ≠ [] →
    ∀ id n, (setsWith c id (nalsOf ps)).getLast? = some n → ∃ i, LastInfo t.out i ∧ n <:+: i.extra

def twoPps : Chain := [stream [(0, sps), (0, pps), (0, pps1), (0, idr)]]

/-- Finding: of two picture parameter sets only the last is announced, and both are removed from the frames. -/
theorem two_pps_written : (match videoPes codec {} twoPps 0 0 with | .ok t => t.out | _ => []) =
    [.info { theInfo with extra := avcC 0x64 0 0x1f sps pps1 }, .frame true 0 0 ([0, 0, 0, 6] ++ idr)] := by
  decide +kernel

theorem not_sets_are_announced : ¬ SetsAreAnnounced codec := by
  intro h
  have h1 := two_pps_written
  cases h2 : videoPes codec {} twoPps 0 0 with
  | ub => exact absurd h2 (by decide +kernel)
  | err => exact absurd h2 (by decide +kernel)
  | ok t =>
    rw [h2] at h1
    dsimp only at h1
    obtain ⟨i, ⟨pre, suf, h3, h4⟩, h5⟩ := h [(twoPps, 0, 0)] t (by decide +kernel)
      (by
        show videoPes codec {} twoPps 0 0 >>= (fun t => runVideo codec t []) = _
        rw [h2]
        rfl)
      (by rw [h1]; exact List.cons_ne_nil _ _) 2048 pps (by decide +kernel)
    rw [h1] at h3
    have hi : i = { theInfo with extra := avcC 0x64 0 0x1f sps pps1 } := by
      cases pre with
      | nil =>
        rw [List.nil_append, List.cons.injEq, Out.info.injEq] at h3
        exact h3.1.symm
      | cons x pre =>
        have h6 := (List.cons.inj h3).2
        cases pre with
        | nil => cases h6
        | cons y pre => exact absurd (List.cons.inj h6).2 (by simp)
    subst hi
    exact absurd h5 (by decide +kernel)

/-- Finding: captions that are seen after the media info was sent are not announced. -/
theorem late_captions : (match videoPes codec track [stream [(0, [6, 4, 5]), (0, slice)]] 0 0 with | .ok t => some (t.cea, t.out.drop 2) | _ => none) =
    some (true, [.frame false 8589934592 0 [0, 0, 0, 3, 6, 4, 5, 0, 0, 0, 2, 0x41, 8]]) := by
  decide +kernel

/-! ## AAC -/

def aFrame (crc : Option (UInt8 × UInt8)) (payload : List UInt8) : AdtsSpec.Frame :=
  { id := 0, layer := 0, profile := 1, freq := 4, priv := 0, chan := 2, original := 0, home := 0, copyId := 0, copyStart := 0, full := 2047,
    blocks := 0, crc := crc, payload := payload }

def f1 : AdtsSpec.Frame := aFrame none [1, 2, 3]
def f2 : AdtsSpec.Frame := aFrame (some (7, 7)) [4, 5]

example : f1.bytes = [0xff, 0xf1, 0x50, 0x80, 0x01, 0x5f, 0xfc, 1, 2, 3] := by decide +kernel

def whole : Packet :=
  { chain := [[0xff], [0xf1, 0x50, 0x80, 0x01, 0x5f, 0xfc, 1, 2], [3], [], f2.bytes], pts := 90000, frames := [f1, f2] }

theorem valid (c : Option (UInt8 × UInt8)) (l : List UInt8) (h : l.length < 100) : (aFrame c l).Valid := by
  refine ⟨?_, ?_, ?_, ?_, ?_, ?_, ?_, ?_, ?_, ?_, ?_, ?_, ?_⟩
  all_goals try (simp only [aFrame]; omega)
  show (if c.isSome then 9 else 7) + l.length < 8192
  split <;> omega

theorem whole_whole : whole.Whole where
  bufs := by decide
  bytes := by decide +kernel
  valid := by
    intro f hf
    simp only [whole, List.mem_cons, List.not_mem_nil, or_false] at hf
    rcases hf with rfl | rfl <;> exact valid _ _ (by decide)
  one := by decide
  same := by decide

/-- The hypotheses of C80 are met, and so is written what is expected. -/
example : ∃ t', runAudio {} [whole, { whole with pts := 100000 }] = .ok t' ∧ t'.out = expected none {} (timed 90000 0 [f1, f2] ++ timed 100000 0 [f1, f2]) :=
  aac_frames_are_received_partial [whole, { whole with pts := 100000 }] (by
    intro p hp
    simp only [List.mem_cons, List.not_mem_nil, or_false] at hp
    rcases hp with rfl | rfl
    · exact whole_whole
    · exact ⟨whole_whole.bufs, whole_whole.bytes, whole_whole.valid, whole_whole.one, whole_whole.same⟩)

example : (match runAudio {} [whole, { whole with pts := 100000 }] with | .ok t => t.out | _ => []) =
    [.info { rate := 44100, channels := 2, mono := false, extra := [0x12, 0x10] }, .frame 90000 [1, 2, 3], .frame 92089 [4, 5],
      .frame 100000 [1, 2, 3], .frame 102089 [4, 5]] := by
  decide +kernel

/-- The full claim of C80: the frames that PES packets carry, wherever the packets divide them, are written. -/
def FramesAreReceived : Prop :=
  ∀ (ps : List (Chain × Nat)) (fs : List AdtsSpec.Frame), (ps.flatMap fun p => p.1.flatten) = fs.flatMap AdtsSpec.Frame.bytes →
    (∀ f ∈ fs, f.Valid) → ∃ t', runAudio {} (ps.map fun p => { chain := p.1, pts := p.2, frames := [] }) = .ok t' ∧
      (t'.out.filterMap fun o => match o with | .frame _ d => some d | .info _ => none) = fs.map (·.payload)

/-- Finding: a frame that goes on in the next PES packet ends the session. -/
theorem a_divided_frame : runAudio {} [{ chain := [f1.bytes.take 8], pts := 0, frames := [] }, { chain := [f1.bytes.drop 8], pts := 0, frames := [] }] =
    .err := by
  decide +kernel

/-- Finding: a PES packet without a buffer is read through NULL. -/
theorem no_buffer : aacPes {} [] 0 = .ub := by decide +kernel

theorem not_frames_are_received : ¬ FramesAreReceived := by
  intro h
  obtain ⟨t', h1, _⟩ := h [([f1.bytes.take 8], 0), ([f1.bytes.drop 8], 0)] [f1] (by decide +kernel) (fun f hf => by
    rw [List.mem_singleton.mp hf]
    exact valid _ _ (by decide))
  have h2 := a_divided_frame
  simp only [List.map_cons, List.map_nil] at h1
  rw [h2] at h1
  cases h1

/-- Finding: a frame of two raw data blocks takes the time of one. -/
theorem two_blocks : (match aacPes {} [AdtsSpec.Frame.bytes { f1 with blocks := 1 }, f1.bytes] 0 with | .ok t => audioTimes t.out | _ => []) = [0, 2089] ∧
    (timed 0 0 [{ f1 with blocks := 1 }, f1]).map Prod.snd = [0, 4179] := by
  decide +kernel

/-! ## Times -/

/-- The hypotheses of C81 are met: the times wrap between two packets. -/
def wrapped : List Timed := [⟨second, 8589934600, 8589934590⟩, ⟨second, 8589938200, 8589938190⟩]

example (t' : Track) (h : runVideo codec { track with clock := {} } (wrapped.map Timed.sent) = .ok t') :
    frameTimes t'.out = frameTimes track.out ++ [(8589934590, 10), (8589938190, 10)] :=
  video_times_are_kept_partial codec { track with clock := {} } t' ⟨second, 8589934600, 8589934590⟩ [⟨second, 8589938200, 8589938190⟩] (by decide +kernel)
    rfl (by decide +kernel) ⟨by decide, by decide, trivial⟩ (by decide) h

example : (match runVideo codec { track with clock := {} } (wrapped.map Timed.sent) with | .ok t => frameTimes (t.out.drop 2) | _ => []) =
    [(8589934590, 10), (8589938190, 10)] := by
  decide +kernel

example : ∃ t' start, runAudio {} [whole, { whole with pts := 3 }] = .ok t' ∧ start % 8589934592 = 90000 % 8589934592 ∧
    audioTimes t'.out = [90000, 92089, 8589934595, 8589936684].map fun x => x - 90000 + start :=
  audio_times_are_kept_partial [(whole, 90000), ({ whole with pts := 3 }, 8589934595)]
    (by
      intro p hp
      simp only [List.mem_cons, List.not_mem_nil, or_false] at hp
      rcases hp with rfl | rfl
      · exact whole_whole
      · exact ⟨whole_whole.bufs, whole_whole.bytes, whole_whole.valid, whole_whole.one, whole_whole.same⟩)
    (by decide) 90000 [92089, 8589934595, 8589936684] (by decide +kernel) ⟨by decide, by decide, by decide, by decide, by decide, by decide, trivial⟩

/-- The full claim of C81: differences of times are kept, in both directions. -/
def TimesAreKept : Prop :=
  ∀ (t d : Int) (ts ds : List Int), Sent (t :: ts) (d :: ds) → (∀ x ∈ ts, (x - t).natAbs < 4294967296) → stamps {} (d :: ds) = (t :: ts).map (· + (d - t))

/-- Finding: a decoding time that goes back by one tick is taken as 26 hours forward. -/
theorem not_times_are_kept : ¬ TimesAreKept := by
  intro h
  have := h 1000 1000 [999] [999] ⟨rfl, rfl, trivial⟩ (by decide)
  revert this
  decide

end Verif.TsKmp.Cases
