import Verif.TimelineCases
import Verif.TimelineSeq

/-!
# Cases of the lookups in timelines, and of waiting requests
-/

namespace Verif.Timeline

open Verif.SegmentList (Seg Tree)

/-- The live timeline of `s2`: numbers of indexes, and back (C49). -/
example : ∃ t ∈ s2.1.tls, t.segCount ≤ t.man.sequence ∧ playlist t = [⟨8, 8, 1⟩, ⟨9, 9, 1⟩, ⟨10, 10, 1⟩, ⟨11, 11, 1⟩] ∧
    idxToSeq t 9 = (9, true) ∧ idxToSeq t 12 = (12, false) ∧ seqToIdx s2.1 t 10 = .ok 10 ∧ seqToIdx s2.1 t 13 = .ok 13 := by decide +kernel

def sb : Ch × List Seg := (run true ([bounded] ++ early ++ late) start).get (by decide +kernel)

/-- With a segment that the timeline did not admit the numbers are other ones than the indexes. -/
example : ∃ t ∈ sb.1.tls, t.segCount ≤ t.man.sequence ∧ playlist t = [⟨6, 5, 0⟩, ⟨7, 6, 1⟩] ∧
    idxToSeq t 6 = (5, true) ∧ idxToSeq t 7 = (6, true) ∧ seqToIdx sb.1 t 6 = .ok 7 ∧ seqToIdx sb.1 t 7 = .ok 12 := by decide +kernel

/-- Segments by index, in a tree with the second period at the root (C49). -/
example : ∃ t ∈ sb.1.tls, (Tree.node (.node .leaf 0 .leaf) 1 .leaf).walk = List.range t.periods.length ∧
    segInfo t 5 6 true (.node (.node .leaf 0 .leaf) 1 .leaf) = .ok (.found (-4000)) ∧
    segInfo t 5 7 true (.node (.node .leaf 0 .leaf) 1 .leaf) = .ok (.found (-20000)) ∧
    segInfo t 5 7 false (.node (.node .leaf 0 .leaf) 1 .leaf) = .ok (.found 0) ∧
    segInfo t 5 5 true (.node (.node .leaf 0 .leaf) 1 .leaf) = .ok .removed ∧
    segInfo t 5 8 true (.node (.node .leaf 0 .leaf) 1 .leaf) = .ok .notFound := by decide +kernel

/-! ## What does not hold -/

/-- A timeline that keeps everything with a playlist of three seconds; segments of four seconds are dropped from the playlist when they
are added, without a number. The channel begins at index 0, and indexes are left out after the first one. -/
def early0 : List Op := [.create ⟨0, 0, -1, 0, 0, true, false⟩ ⟨3000, 0, 0, 1⟩ 0, .add 1 0 0 4000 false, .next 5, .add 2 20000 5 4000 false, .next 6,
  .add 3 24000 6 2000 false, .next 7]

theorem early0_some : (run true early0 (init 0 1000, [])).isSome = true := by decide +kernel

/-- `number_to_index_partial` needs that the timeline has no more segments than there are numbers: here the count wraps, and the segment with
number 0 is 6, not 2. -/
theorem number_to_index_fails : ∃ s H, Reach true s H ∧ ∃ t ∈ s.tls, t.man.sequence = 1 ∧ t.segCount = 3 ∧ playlist t = [⟨6, 0, 2⟩] ∧
    seqToIdx s t 0 = .ok 2 ∧ 2 ∉ ids t.periods :=
  ⟨_, _, run_reach early0 (init 0 1000, []) ((run true early0 (init 0 1000, [])).get early0_some) (.init 0 1000 (by decide)) (by simp),
    by decide +kernel⟩

/-! ## Waiting -/

instance (s : Ch) (k : Trk) (pt : Parts) : Decidable (TrkOk s k pt) :=
  decidable_of_iff (s.next + k.pidx + k.has.toNat < 2 ^ 32 ∧ s.next + k.pidx + k.has.toNat ≤ max (s.lastIdx + 1) s.next ∧ (0 < pt.next → k.has = true))
    ⟨fun ⟨a, b, c⟩ => ⟨a, b, c⟩, fun ⟨a, b, c⟩ => ⟨a, b, c⟩⟩

/-- Parts of half a second; the pending segment has three. -/
def parts : Parts := ⟨500, 1000, 3⟩

/-- The channel while segment 11 is in production: it is in the timeline, and the track has it as pending (C50). -/
def sp : Ch × List Seg := (run true (early ++ late.dropLast) start).get (by decide +kernel)

theorem sp_reach : Reach true sp.1 sp.2 := get_run _

example : ∃ t ∈ sp.1.tls, TrkOk sp.1 ⟨true, 0⟩ parts ∧ (∃ r ∈ playlist t, r.idx < sp.1.next) ∧ t.man.conf.endList ≠ 2 ∧ 0 < t.man.segCount ∧
    t.segCount ≤ t.man.sequence ∧
    waitRequest sp.1 t ⟨true, 0⟩ parts invalidIdx 10 0 = .ok .now ∧
    waitRequest sp.1 t ⟨true, 0⟩ parts invalidIdx 11 2 = .ok .now ∧
    waitRequest sp.1 t ⟨true, 0⟩ parts invalidIdx 11 3 = .ok (.wait 11 3) ∧
    waitRequest sp.1 t ⟨true, 0⟩ parts invalidIdx 12 0 = .ok (.wait 12 0) ∧
    waitRequest sp.1 t ⟨true, 0⟩ parts invalidIdx 99 0 = .ok .seqLimit ∧
    ∃ mx, maxIndex sp.1 t (some ⟨true, 0⟩) true invalidIdx = .ok mx ∧ ∃ x, serve sp.1 t 4000 (some ⟨true, 0⟩) mx = .ok x ∧
      (clientRows x.1 x.2).map (·.num) = [8, 9, 10, 11] := by decide +kernel

end Verif.Timeline
