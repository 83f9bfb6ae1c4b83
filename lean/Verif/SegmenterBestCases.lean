import Verif.SegmenterBest
import Verif.SegmenterCases

/-!
# The segmenter: where segments end, cases
-/

namespace Verif.Segmenter

open Verif.SegmenterBestSpec

/-! ## C133 -/

/-- A video track with key frames at these times. -/
def keysAt (l : List Int) : Track :=
  { media := .video, state := .ready, frameCount := 300, received := 300, receivedKey := 4, hasLast := true, lastPts := 9000, kparts := [l.map fun p => ⟨p, p, false, false, 30⟩] }

def ctx2 : Ctx := { curReady := 6000, lastEnd := 0, force := false, nReady := 2 }

/-- Two tracks that agree about 1900 and 5000, and not about 3800: the segment does not end at the key frame that is closest to 4000. -/
def two : List Track := [keysAt [0, 1900, 3800, 5000, 7000], keysAt [0, 1900, 5100, 7000]]

example : segTimes cfg ctx2 two 0 = .ok (0, 5050, invalid) := by decide +kernel

/-- When both have it, it does. -/
example : segTimes cfg ctx2 [keysAt [0, 1900, 3800, 5000, 7000], keysAt [0, 1900, 3900, 5100, 7000]] 0 = .ok (0, 3850, invalid) := by decide +kernel

/-- The times of `two` are real ones, as `ends_best` asks for. -/
example : ∀ o ∈ segOpts cfg ctx2 two 0, o.time cfg.maxSpan ≠ invalid ∧ o.hi - o.lo ≤ invalid := by decide +kernel

/-- Without video the segment has the configured duration. -/
example : segTimes cfg ctx2 [{ media := .audio, state := .ready, frameCount := 300, received := 300, receivedKey := 300, hasLast := true, lastPts := 9000 }] 0 = .ok (0, 4000, invalid) := by decide +kernel

end Verif.Segmenter
