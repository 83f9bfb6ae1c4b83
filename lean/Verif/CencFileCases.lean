import Verif.CencFileProps
import Verif.CencCases

/-!
# Encrypted segments: examples, and where the claims fail
-/

namespace Verif.CencFile

open Fmp4 (Bytes Seg Track)
open Fmp4Spec (Sample readSegment cut)
open CencFileSpec
open Cenc (Par toy toyPar)

/-- Memory that starts with some bytes. -/
def memOf (b : Bytes) (a : Nat) : UInt8 := b.getD a 0

/-- A frame with a parameter set and a slice, an empty frame, and a frame with a slice of three blocks. -/
def video0 : Bytes := [0, 0, 0, 3, 0x67, 1, 2, 0, 0, 0, 5, 0x65, 3, 4, 5, 6] ++ ([0, 0, 0, 41, 0x41] ++ List.replicate 40 9)

def track0 : Track :=
  { kind := .video, timescale := 1000, start := 5000, addr := 0, avail := 61,
    frames := [⟨16, true, 400, 100⟩, ⟨0, false, 400, 900⟩, ⟨45, false, 400, 0⟩] }

def seg0 : Seg := { index := 7, tracks := [track0], info := [] }

theorem seg0_fits : seg0.Fits where
  size := by decide +kernel
  frame := by decide +kernel
  start := by decide +kernel
  avail := by decide +kernel

/-- The hypotheses of the theorems on video hold. -/
theorem video0_fits : VideoFits toyPar (memOf video0) seg0 track0 [[[0x67, 1, 2], [0x65, 3, 4, 5, 6]], [], [0x41 :: List.replicate 40 9]] where
  track := rfl
  fits := seg0_fits
  scale := by decide
  low := by decide
  high := by decide
  units := by decide +kernel
  last := by
    intro us h
    injection h with h
    subst h
    simp
  clear := by decide +kernel
  count := by decide +kernel
  size := by decide +kernel

theorem toyPar_ok : toyPar.Ok := ⟨by decide, by decide, by decide⟩

example : ∃ f p ss, videoResponse toyPar [0, 0, 0, 0, 0, 0, 0, 9] (memOf video0) seg0 = .ok f ∧ Fmp4.response (memOf video0) seg0 = .ok p ∧
    readSegment p = some [(1, ss)] ∧ decryptSegment toy.enc f = some ss := by
  obtain ⟨f, p, ss, h1, h2, h3, h4, _⟩ := video_segment_partial toyPar_ok [0, 0, 0, 0, 0, 0, 0, 9] video0_fits
  exact ⟨f, p, ss, h1, h2, h3, h4⟩

/-- What a player gets, and the information on the samples in both forms. The vectors start at 9 + 5 · 60. -/
example : (videoResponse toyPar [0, 0, 0, 0, 0, 0, 0, 9] (memOf video0) seg0).map (decryptSegment toy.enc) = .ok (some
    [⟨5000 + 100, 5100, 400, true, video0.take 16⟩, ⟨5500, 6300, 400, false, []⟩, ⟨5900, 5800, 400, false, video0.drop 16⟩]) ∧
    (videoResponse toyPar [0, 0, 0, 0, 0, 0, 0, 9] (memOf video0) seg0).map (fun f => (segmentInfos f, auxInfos f)) =
      .ok (some [⟨[0, 0, 0, 0, 0, 0, 1, 53], some [(7, 0), (5, 4)]⟩, ⟨[0, 0, 0, 0, 0, 0, 1, 54], some []⟩, ⟨[0, 0, 0, 0, 0, 0, 1, 55], some [(5, 40)]⟩],
        some [⟨[0, 0, 0, 0, 0, 0, 1, 53], some [(7, 0), (5, 4)]⟩, ⟨[0, 0, 0, 0, 0, 0, 1, 54], some []⟩, ⟨[0, 0, 0, 0, 0, 0, 1, 55], some [(5, 40)]⟩]) := by
  decide +kernel

/-- The first slice is encrypted in the response. -/
example : (videoResponse toyPar [0, 0, 0, 0, 0, 0, 0, 9] (memOf video0) seg0).map (fun f => (readSegment f).map fun ts => ts.map fun t =>
    t.2.map fun s => (decide (s.data.take 12 = video0.take 12), decide (s.data.drop 12 = (video0.take 16).drop 12))) =
      .ok (some [[(true, false), (false, false), (false, false)]]) := by decide +kernel

def track1 : Track :=
  { kind := .audio, timescale := 48000, start := -24000, addr := 3, avail := 40,
    frames := [⟨17, false, 1024, 0⟩, ⟨0, false, 1024, 0⟩, ⟨20, false, 1024, 0⟩] }

def seg1 : Seg := { index := 1, tracks := [track1], info := [1, 2] }

/-- The hypotheses of the theorems on audio hold, for a segment that starts before time 0. -/
theorem audio1_fits : AudioFits seg1 track1 where
  track := rfl
  fits := { size := by decide +kernel, frame := by decide +kernel, start := by decide +kernel, avail := by decide +kernel }
  scale := by decide
  low := by decide
  high := by decide
  last := by decide +kernel
  size := by decide +kernel

example : ∃ f is, audioResponse toy 16 [0, 0, 0, 0, 0, 0, 1, 0] (fun a => UInt8.ofNat a) seg1 = .ok f ∧ segmentInfos f = some is ∧
    is.length = 3 ∧ auxInfos f = some is := audio_aux toy (Nat.le_refl 16) _ _ audio1_fits

example : (audioResponse toy 16 [0, 0, 0, 0, 0, 0, 1, 0] (fun a => UInt8.ofNat a) seg1).map (fun f => (auxInfos f, (decryptSegment toy.enc f).map fun ss =>
    ss.map (·.data.length))) = .ok (some [⟨[0, 0, 0, 0, 0, 0, 0, 226], none⟩, ⟨[0, 0, 0, 0, 0, 0, 0, 227], none⟩, ⟨[0, 0, 0, 0, 0, 0, 0, 228], none⟩],
      some [17, 0, 20]) := by decide +kernel

/-! ## Where the claims fail -/

/-- The full claim C103 for video: frames made of units, that fit the fields of the boxes. -/
def VideoSegmentClaim : Prop := ∀ (P : Par), P.Ok → ∀ (iv : Bytes) (mem : Nat → UInt8) (g : Seg) (t : Track) (fs : List (List Bytes)),
  g.tracks = [t] → g.Fits → t.timescale ≠ 0 → -2 ^ 63 ≤ t.start * 60 → t.start * 60 < 2 ^ 63 →
  (cut mem t.addr (t.frames.map (·.size))).map (units P.n) = fs.map some →
  g.bound + 53 + 11 * fs.length + 6 * (fs.map List.length).sum < 2 ^ 31 →
  ∃ f p ss, videoResponse P iv mem g = .ok f ∧ Fmp4.response mem g = .ok p ∧ readSegment p = some [(1, ss)] ∧ decryptSegment P.E.enc f = some ss

def segE : Seg :=
  { index := 1, info := [],
    tracks := [{ kind := .video, timescale := 1000, start := 0, addr := 0, avail := 16, frames := [⟨16, true, 400, 0⟩, ⟨0, false, 400, 0⟩] }] }

/-- With an empty frame at the end there is no header in the response, which is no segment. -/
theorem empty_last_no_header : (videoResponse toyPar [0, 0, 0, 0, 0, 0, 0, 9] (memOf video0) segE).map (decryptSegment toy.enc) = .ok none := by decide +kernel

theorem videoSegment_fails : ¬ VideoSegmentClaim := by
  intro h
  obtain ⟨f, p, ss, h1, _, _, h4⟩ := h toyPar toyPar_ok [0, 0, 0, 0, 0, 0, 0, 9] (memOf video0) segE _ [[[0x67, 1, 2], [0x65, 3, 4, 5, 6]], []] rfl
    { size := by decide +kernel, frame := by decide +kernel, start := by decide +kernel, avail := by decide +kernel }
    (by decide) (by decide) (by decide) (by decide +kernel) (by decide +kernel)
  have := empty_last_no_header
  rw [h1] at this
  injection this with this
  have h4' : decryptSegment toy.enc f = some ss := h4
  rw [h4'] at this
  cases this

/-- The full claim C103 for audio. -/
def AudioSegmentClaim : Prop := ∀ (E : Cenc.Cipher) (cap : Nat), 16 ≤ cap → ∀ (iv : Bytes) (mem : Nat → UInt8) (g : Seg) (t : Track),
  g.tracks = [t] → g.Fits → t.timescale ≠ 0 → -2 ^ 63 ≤ t.start * 60 → t.start * 60 < 2 ^ 63 → g.bound + 53 + 8 * t.frames.length < 2 ^ 31 →
  ∃ f p ss, audioResponse E cap iv mem g = .ok f ∧ Fmp4.response mem g = .ok p ∧ readSegment p = some [(1, ss)] ∧ decryptSegment E.enc f = some ss

def segF : Seg :=
  { index := 1, info := [],
    tracks := [{ kind := .audio, timescale := 1000, start := 0, addr := 0, avail := 19, frames := [⟨16, true, 400, 0⟩, ⟨3, true, 400, 0⟩, ⟨0, false, 400, 0⟩] }] }

/-- With an empty frame at the end the data of audio is cut. -/
theorem audio_empty_last_cut : (audioResponse toy 16 [0, 0, 0, 0, 0, 0, 0, 9] (memOf video0) segF).map
    (decryptSegment toy.enc) = .ok none := by decide +kernel

theorem audioSegment_fails : ¬ AudioSegmentClaim := by
  intro h
  obtain ⟨f, p, ss, h1, _, _, h4⟩ := h toy 16 (Nat.le_refl _) [0, 0, 0, 0, 0, 0, 0, 9] (memOf video0)
    segF _ rfl
    { size := by decide +kernel, frame := by decide +kernel, start := by decide +kernel, avail := by decide +kernel }
    (by decide) (by decide) (by decide) (by decide +kernel)
  have := audio_empty_last_cut
  rw [h1] at this
  injection this with this
  rw [h4] at this
  cases this

/-- The full claim C104 for video. -/
def VideoAuxClaim : Prop := ∀ (P : Par), P.Ok → ∀ (iv : Bytes) (mem : Nat → UInt8) (g : Seg) (t : Track) (fs : List (List Bytes)),
  VideoFits P mem g t fs → ∃ f is, videoResponse P iv mem g = .ok f ∧ segmentInfos f = some is ∧ auxInfos f = some is

/-- A frame of 41 units. -/
def video2 : Bytes := (List.replicate 41 [1, 6]).flatten

def seg2 : Seg :=
  { index := 1, info := [], tracks := [{ kind := .video, timescale := 1000, start := 0, addr := 0, avail := 82, frames := [⟨82, true, 400, 0⟩] }] }

def par2 : Par := ⟨toy, 16, 1, false⟩

/-- The size of the information of a frame of 41 units does not fit its byte in `saiz`: nothing is found there. -/
theorem many_units_aux : (videoResponse par2 [0, 0, 0, 0, 0, 0, 0, 9] (memOf video2) seg2).map auxInfos = .ok none := by decide +kernel

theorem videoAux_fails : ¬ VideoAuxClaim := by
  intro h
  obtain ⟨f, is, h1, _, h3⟩ := h par2 ⟨by decide, by decide, by decide⟩ [0, 0, 0, 0, 0, 0, 0, 9] (memOf video2) seg2 _ [List.replicate 41 [6]]
    { track := rfl
      fits := { size := by decide +kernel, frame := by decide +kernel, start := by decide +kernel, avail := by decide +kernel }
      scale := by decide
      low := by decide
      high := by decide
      units := by decide +kernel
      last := by intro us h; injection h with h; subst h; simp
      clear := by decide +kernel
      count := by decide +kernel
      size := by decide +kernel }
  have := many_units_aux
  rw [h1] at this
  injection this with this
  rw [h3] at this
  cases this

end Verif.CencFile
