import Verif.TimelineSeqCases
import Verif.TimelineSkip

/-!
# Cases of delta playlists
-/

namespace Verif.Timeline

open Verif.SegmentList (Seg Tree TreeOf)

/-- Delta playlists with a boundary of twice the target duration; the list has two nodes. -/
def two : Tree := .node .leaf 0 (.node .leaf 1 .leaf)

/-- The hypotheses of `delta_partial`, with and without a pending segment. -/
example : TreeOf s2.1.segs.sl two ∧ TreeOf sp.1.segs.sl two ∧ 0 < s2.1.scale ∧ pendingOn s2.1.next none 11 = false ∧
    pendingOn sp.1.next (some ⟨true, 0⟩) 11 = true := by unfold TreeOf; decide +kernel

/-- The first segment is left out. -/
example : ∃ t ∈ s2.1.tls, boundary 200 t.man.target s2.1.scale = 8000 ∧ (playlist t).map (·.num) = [8, 9, 10, 11] ∧
    ∃ x, serveSkip s2.1 t two 4000 none 11 200 = .ok x ∧ x.1.skipSegs = 1 ∧ x.1.seq = 8 ∧ deltaRows x.1 x.2 = [⟨9, 9, 1⟩, ⟨10, 10, 1⟩, ⟨11, 11, 1⟩] ∧
      ((x.2.flatMap SPer.segs).map (·.dur)).sum = 12000 := by decide +kernel

/-- A whole period and one more segment are left out; the last segment is pending. -/
example : ∃ t ∈ sp.1.tls, (playlist t).map (·.num) = [5, 6, 7, 8, 9, 10, 11] ∧
    ∃ x, serveSkip sp.1 t two 4000 (some ⟨true, 0⟩) 11 200 = .ok x ∧ x.1.skipSegs = 3 ∧ x.1.skipPer = 1 ∧ x.1.seq = 5 ∧
      deltaRows x.1 x.2 = [⟨8, 8, 1⟩, ⟨9, 9, 1⟩, ⟨10, 10, 1⟩, ⟨11, 11, 1⟩] ∧
      (x.2.flatMap SPer.segs).map (·.dur) = [4000, 4000, 4000, 0] := by decide +kernel

/-- **Finding.** The header gives the first segment that is listed as the last one that was left out, when both are in one period: the
decrement at ngx_live_timeline.c:3475 comes after the assignment. -/
theorem last_skipped_fails : ∃ s H, Reach true s H ∧ ∃ t ∈ s.tls, 0 < t.man.segCount ∧ TreeOf s.segs.sl two ∧
    ∃ x, serveSkip s t two 4000 none 11 200 = .ok x ∧ 0 < x.1.skipSegs ∧ x.1.lastSkip ∈ (deltaRows x.1 x.2).map (·.idx) :=
  ⟨_, _, s2_reach, by unfold TreeOf; decide +kernel⟩

end Verif.Timeline
