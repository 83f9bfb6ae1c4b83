import Verif.Fmp4Props

/-!
# fMP4 segments: examples, and where the claims fail
-/

namespace Verif.Fmp4

open Fmp4Spec (Sample readSegment shown allBoxes the readSidx readEmsg kind)

/-- Memory with the address of every byte. -/
def mem0 (a : Nat) : UInt8 := UInt8.ofNat a

/-- Video with frames that are shown out of order, and audio; with metadata. -/
def seg0 : Seg :=
  { index := 7
    tracks :=
      [{ kind := .video, timescale := 1000, start := 5000, addr := 10, avail := 6,
         frames := [⟨3, true, 400, 100⟩, ⟨2, false, 400, 900⟩, ⟨1, false, 400, 0⟩] },
       { kind := .audio, timescale := 1000, start := 5100, addr := 50, avail := 5,
         frames := [⟨2, false, 300, 0⟩, ⟨0, false, 300, 0⟩, ⟨3, false, 300, 0⟩] }]
    info := [0x68, 0x69] }

theorem seg0_fits : seg0.Fits where
  size := by decide +kernel
  frame := by decide +kernel
  start := by decide +kernel
  avail := by decide +kernel

/-- What a reader gets from the response for `seg0`. -/
example : ((response mem0 seg0).map readSegment) = .ok (some
    [(1, [⟨5100, 5100, 400, true, [10, 11, 12]⟩, ⟨5500, 6300, 400, false, [13, 14]⟩, ⟨5900, 5800, 400, false, [15]⟩]),
     (2, [⟨5100, 5100, 300, true, [50, 51]⟩, ⟨5400, 5400, 300, true, []⟩, ⟨5700, 5700, 300, true, [52, 53, 54]⟩])]) := by
  decide +kernel

example : ∃ file, response mem0 seg0 = .ok file ∧ file.length = totalSize seg0 1 0 := (segment_size mem0 seg0_fits).2

/-- The audio is not in one run. -/
example : (layout seg0).truns = 4 ∧ totalSize seg0 1 0 = 394 := by decide +kernel

/-- The event of `seg0`. -/
example : (response mem0 seg0).map (fun f => (allBoxes 0 f).bind fun bs => (the "emsg" bs).bind fun b => (readEmsg b.body).map fun e => (e.time, e.id, e.message))
    = .ok (some (5000, 7, MtsSpec.id3Tag [0x68, 0x69])) := by decide +kernel

/-- One track, with a time of more than 32 bits. -/
def seg1 : Seg :=
  { index := 1
    tracks := [{ kind := .video, timescale := 90000, start := 2 ^ 33, addr := 0, avail := 8,
                 frames := [⟨4, true, 3000, 3000⟩, ⟨4, false, 3000, 0⟩] }]
    info := [] }

theorem seg1_fits : seg1.Fits where
  size := by decide +kernel
  frame := by decide +kernel
  start := by decide +kernel
  avail := by decide +kernel

example : (response mem0 seg1).map (fun f => (allBoxes 0 f).bind fun bs => (the "sidx" bs).bind fun b => (readSidx b.body).map fun x => (x.earliest, x.dur, b.pos + 8 + b.body.length + x.size, f.length))
    = .ok (some (2 ^ 33 + 3000, 6000, 216, 216)) := by decide +kernel

/-! ## C96: where it fails -/

/-- C96: every frame is shown at the time that its track gives it. Cues have no delay: `delay` is the time they are shown. -/
def TimesExact : Prop :=
  ∀ (mem : Nat → UInt8) (g : Seg), g.Fits → ∃ file tracks, response mem g = .ok file ∧ readSegment file = some tracks ∧
    ∀ i t, g.tracks[i]? = some t → ∃ ss, tracks[i]? = some (i + 1, ss) ∧
      ss.map (·.pts) = shown t.start (t.frames.map fun f => (f.dur, if t.kind = .video then f.delay else 0))

/-- Audio that starts before 0. -/
def segNeg : Seg :=
  { index := 1
    tracks := [{ kind := .audio, timescale := 1000, start := -20, addr := 0, avail := 2, frames := [⟨2, false, 30, 0⟩] }]
    info := [] }

/-- Two cues, at 1000 for 400, and at 3000 for 500. -/
def segCues : Seg :=
  { index := 1
    tracks := [{ kind := .cue, timescale := 1000, start := 1000, addr := 0, avail := 8, frames := [⟨4, false, 2000, 400⟩, ⟨4, false, 0, 500⟩] }]
    info := [] }

theorem segCues_fits : segCues.Fits where
  size := by decide +kernel
  frame := by decide +kernel
  start := by decide +kernel
  avail := by decide +kernel

theorem segNeg_fits : segNeg.Fits where
  size := by decide +kernel
  frame := by decide +kernel
  start := by decide +kernel
  avail := by decide +kernel

/-- Frames before 0 are moved to 0, and with them all others of the track. -/
theorem times_fail_negative : ((response mem0 segNeg).map fun f => (readSegment f).map fun ts => ts.map fun t => t.2.map (·.pts)) = .ok (some [[0]]) ∧
    shown (-20) [(30, 0)] = [-20] := by decide +kernel

/-- The second cue is shown at 3400 rather than at 3000. -/
theorem times_fail_cues : ((response mem0 segCues).map fun f => (readSegment f).map fun ts => ts.map fun t => t.2.map (·.pts)) = .ok (some [[1000, 3400]]) ∧
    shown 1000 [(2000, 0), (0, 0)] = [1000, 3000] := by decide +kernel

theorem not_times_exact : ¬ TimesExact := by
  intro h
  obtain ⟨file, tracks, h1, h2, h3⟩ := h mem0 segCues segCues_fits
  obtain ⟨ss, h4, h5⟩ := h3 0 _ rfl
  have hw := times_fail_cues.1
  rw [h1] at hw
  simp only [Res.map, h2, Option.map_some, Res.ok.injEq, Option.some.injEq] at hw
  have h6 : (tracks.map fun t => t.2.map (·.pts))[0]? = some [1000, 3400] := by rw [hw]; rfl
  rw [List.getElem?_map, h4] at h6
  simp only [Option.map_some, Option.some.injEq] at h6
  rw [h6] at h5
  revert h5
  decide +kernel

/-! ## C97: where it fails -/

/-- C97: the index also has the earliest time at which a frame is shown. -/
def IndexExact : Prop :=
  ∀ (mem : Nat → UInt8) (g : Seg) (t : Track), g.Fits → g.tracks = [t] → t.timescale < 2 ^ 32 → (t.frames.map (·.dur)).sum < 2 ^ 32 →
    (0 : Int) ≤ t.start → t.frames ≠ [] →
    ∃ file bs b x, response mem g = .ok file ∧ allBoxes 0 file = some bs ∧ the "sidx" bs = some b ∧ readSidx b.body = some x ∧
      x.timescale = t.timescale ∧ x.dur = (t.frames.map (·.dur)).sum ∧ b.pos + 8 + b.body.length + x.offset + x.size = file.length ∧
      ((x.earliest : Int) ∈ shown t.start (t.frames.map fun f => (f.dur, if t.kind = .video then f.delay else 0))) ∧
      ∀ p ∈ shown t.start (t.frames.map fun f => (f.dur, if t.kind = .video then f.delay else 0)), (x.earliest : Int) ≤ p

/-- A key frame that is followed by a frame that is shown before it. -/
def segLead : Seg :=
  { index := 1
    tracks := [{ kind := .video, timescale := 1000, start := 1000, addr := 0, avail := 8, frames := [⟨4, true, 40, 80⟩, ⟨4, false, 40, 0⟩] }]
    info := [] }

theorem segLead_fits : segLead.Fits where
  size := by decide +kernel
  frame := by decide +kernel
  start := by decide +kernel
  avail := by decide +kernel

theorem index_fails : ((response mem0 segLead).map fun f => (allBoxes 0 f).bind fun bs => (the "sidx" bs).bind fun b => (readSidx b.body).map (·.earliest))
    = .ok (some 1080) ∧ shown 1000 [(40, 80), (40, 0)] = [1080, 1040] := by decide +kernel

theorem not_index_exact : ¬ IndexExact := by
  intro h
  obtain ⟨file, bs, b, x, h1, h2, h3, h4, _, _, _, _, h5⟩ :=
    h mem0 segLead _ segLead_fits rfl (by decide) (by decide) (by decide) (by decide)
  have hw := index_fails.1
  rw [h1] at hw
  simp only [Res.map, h2, h3, h4, Option.bind_some, Option.map_some, Res.ok.injEq, Option.some.injEq] at hw
  have := h5 1040 (by decide +kernel)
  rw [hw] at this
  revert this
  decide

/-- With no metadata, no event; with metadata, one that has it. -/
example : ∃ file bs, response mem0 seg0 = .ok file ∧ allBoxes 0 file = some bs ∧ ∃ b e, the "emsg" bs = some b ∧ readEmsg b.body = some e ∧
    e.message = MtsSpec.id3Tag [0x68, 0x69] := by
  obtain ⟨file, bs, h1, h2, _, h3⟩ := segment_event mem0 seg0_fits rfl (by decide) (by decide) (by decide) (by decide)
  obtain ⟨b, e, h4, h5, _, _, _, _, _, h6⟩ := h3 (by decide)
  exact ⟨file, bs, h1, h2, b, e, h4, h5, h6⟩

end Verif.Fmp4
