import Verif.SegmentListCorrupt

/-!
# Histories of segment lists (C25 to C28)

Concrete lists that show that the theorems are about something, and the cases in which the code does not do what the properties
say.
-/

namespace Verif.SegmentList

/-- Adds all segments of a list. -/
def addAll : SL → List Seg → Res SL
  | s, [] => .ok s
  | s, g :: l => do
    let s' ← add s true g.idx g.time g.dur
    addAll s' l

/-- What `AddOk` says, as a check. -/
def addOkB (mono : Bool) (prev : Option Seg) (g : Seg) : Bool :=
  (match prev with
    | none => true
    | some p => decide (p.idx < g.idx) && (!mono || decide (p.time + (p.dur : Nat) ≤ g.time))) &&
  decide (g.idx < 2 ^ 32) && decide (g.dur < 2 ^ 32) && decide (-B ≤ g.time) && decide (g.time + (g.dur : Nat) ≤ B)

def allOkB (mono : Bool) : Option Seg → List Seg → Bool
  | _, [] => true
  | p, g :: l => addOkB mono p g && allOkB mono (some g) l

theorem adds {mono : Bool} : ∀ (l : List Seg) {s s' : SL} {H : List Seg} {m : Nat}, Reach mono s H m → allOkB mono H.getLast? l = true →
    addAll s l = .ok s' → Reach mono s' (H ++ l) m
  | [], s, s', H, m, hr, _, he => by
    injection he with he
    subst he
    rw [List.append_nil]; exact hr
  | g :: l, s, s', H, m, hr, hc, he => by
    unfold allOkB at hc
    obtain ⟨h1, h2⟩ := Bool.and_eq_true_iff.1 hc
    unfold addAll at he
    cases ha : add s true g.idx g.time g.dur with
    | err => rw [ha] at he; exact nomatch he
    | ub => rw [ha] at he; exact nomatch he
    | ok s1 =>
      rw [ha] at he
      have hok : AddOk mono H g.idx g.time g.dur := by
        unfold addOkB at h1
        simp only [Bool.and_eq_true, decide_eq_true_eq] at h1
        obtain ⟨⟨⟨⟨a1, a2⟩, a3⟩, a4⟩, a5⟩ := h1
        refine ⟨fun p hp => ?_, a2, a3, a4, a5⟩
        rw [hp] at a1
        simp only [Bool.and_eq_true, decide_eq_true_eq, Bool.or_eq_true, Bool.not_eq_true'] at a1
        refine ⟨a1.1, fun hm => ?_⟩
        rcases a1.2 with e | e
        · rw [hm] at e; exact nomatch e
        · exact e
      have := adds l (Reach.add hr hok ha) (by rw [List.getLast?_append]; exact h2) he
      rwa [List.append_assoc] at this

/-- Two runs, a gap in time and index, and a run after it. -/
def log1 : List Seg := [⟨5, 0, 10⟩, ⟨6, 10, 10⟩, ⟨7, 20, 12⟩, ⟨9, 100, 8⟩, ⟨10, 108, 8⟩, ⟨11, 116, 8⟩]

def list1 : SL := { nodes := [{ key := 5, time := 0, last := 7, period := 0, elts := [⟨10, 2⟩, ⟨12, 1⟩] },
  { key := 9, time := 100, last := 11, period := 1, elts := [⟨8, 3⟩] }], nodeCount := 2, eltCount := 3, segCount := 6, lastTime := 124, isFirst := false }

theorem list1_reach : Reach true list1 log1 0 := adds log1 Reach.init (by decide +kernel) (by decide +kernel)

def tree1 : Tree := .node .leaf 0 (.node .leaf 1 .leaf)
def tree1' : Tree := .node (.node .leaf 0 .leaf) 1 .leaf

/-! ## C25 -/

example : ∃ it, iterInit list1 tree1' 6 true = .ok (it, 10) ∧ ∀ k, k ≤ 5 → takeN list1 k it = .ok ([10, 12, 8, 8, 8].take k) :=
  lookup_exact list1_reach (t := tree1') rfl (A := [⟨5, 0, 10⟩]) (g := ⟨6, 10, 10⟩) (C := [⟨7, 20, 12⟩, ⟨9, 100, 8⟩, ⟨10, 108, 8⟩, ⟨11, 116, 8⟩])
    rfl (by decide) true

example : iterInit list1 tree1 8 true = .err := lookup_missing list1_reach rfl (by decide)

example : (iterInit list1 tree1 8 false).map (·.2) = .ok 100 := by decide +kernel

/-- A segment is added when its duration is not known, the duration is set, so that it joins the run before, and the first node
is given back. -/
def list2 : SL := freeNodes { list1 with nodes := [{ key := 5, time := 0, last := 7, period := 0, elts := [⟨10, 2⟩, ⟨12, 1⟩] },
  { key := 9, time := 100, last := 12, period := 1, elts := [⟨8, 4⟩] }], segCount := 7, lastTime := 132 } 10

theorem list2_reach : Reach true list2 (log1 ++ [⟨12, 124, 8⟩]) 10 :=
  Reach.free 10 (Reach.update (g := ⟨12, 124, 0⟩) (H := log1) (dur := 8) (m := 0)
    (s := { list1 with nodes := [{ key := 5, time := 0, last := 7, period := 0, elts := [⟨10, 2⟩, ⟨12, 1⟩] },
      { key := 9, time := 100, last := 12, period := 1, elts := [⟨8, 3⟩, ⟨0, 1⟩] }], eltCount := 4, segCount := 7 })
    (adds [⟨12, 124, 0⟩] list1_reach (by decide +kernel) (by decide +kernel)) (by decide) (by decide +kernel) (by decide +kernel))

example : list2.nodes.length = 1 ∧ iterInit list2 (.node .leaf 0 .leaf) 5 true = .err ∧
    (iterInit list2 (.node .leaf 0 .leaf) 12 true).map (·.2) = .ok 124 := by decide +kernel

example : ∃ it, iterInit list2 (.node .leaf 0 .leaf) 11 true = .ok (it, 116) ∧ ∀ k, k ≤ 2 → takeN list2 k it = .ok ([8, 8].take k) :=
  lookup_exact list2_reach (t := .node .leaf 0 .leaf) (by unfold TreeOf; decide +kernel)
    (A := [⟨5, 0, 10⟩, ⟨6, 10, 10⟩, ⟨7, 20, 12⟩, ⟨9, 100, 8⟩, ⟨10, 108, 8⟩]) (g := ⟨11, 116, 8⟩) (C := [⟨12, 124, 8⟩]) rfl (by decide) true

/-- More runs than a node has room for. -/
example : ((addAll init ((List.range 130).map fun (i : Nat) => ⟨i, (100 * i + i / 2 : Nat), 100 + i % 2⟩)).map
    fun s => s.nodes.map (·.elts.length)) = .ok [118, 12] := by decide +kernel

/-! ## C26 -/

example : (∃ it, getSegmentIndex list1 tree1 25 false = .ok (7, 20, it) ∧
      ∀ k, k ≤ 4 → takeN list1 k it = .ok ([12, 8, 8, 8].take k)) ∧ ∀ k ∈ log1, 0 ≤ k.idx → k.has 25 → k = ⟨7, 20, 12⟩ :=
  contains_exact list1_reach (t := tree1) rfl (A := [⟨5, 0, 10⟩, ⟨6, 10, 10⟩]) (g := ⟨7, 20, 12⟩)
    (C := [⟨9, 100, 8⟩, ⟨10, 108, 8⟩, ⟨11, 116, 8⟩]) rfl (by decide) (by unfold Seg.has; decide)

example : getSegmentIndex list1 tree1 50 false = .err ∧ getSegmentIndex list1 tree1 124 true = .err ∧
    getSegmentIndex list1 tree1 (-1) true = .err := by decide +kernel

example : (getSegmentIndex list1 tree1 6 true).map (fun r => (r.1, r.2.1)) = .ok (6, 10) ∧
    (getSegmentIndex list1 tree1 4 true).map (fun r => (r.1, r.2.1)) = .ok (5, 0) := by decide +kernel

/-- A list with one segment. -/
def one : SL := { nodes := [{ key := 0, time := 0, last := 0, period := 0, elts := [⟨10, 1⟩] }], nodeCount := 1, eltCount := 1, segCount := 1,
                  lastTime := 10, isFirst := false }

theorem one_reach : Reach true one [⟨0, 0, 10⟩] 0 := adds [⟨0, 0, 10⟩] Reach.init (by decide +kernel) (by decide +kernel)

/-- The code, at the end of the list: the answer is an index that does not exist, and reading from the iterator is undefined
behaviour. -/
theorem closest_past_end : getSegmentIndex one (.node .leaf 0 .leaf) 7 true = .ok (1, 10, ⟨0, 0, 1⟩) ∧ getOne one ⟨0, 0, 1⟩ = .ub ∧
    ¬ ClosestExact one [⟨0, 0, 10⟩] 0 (.node .leaf 0 .leaf) 7 := by
  refine ⟨by decide +kernel, by decide +kernel, fun h => ?_⟩
  obtain ⟨k, hk, ⟨it, h1⟩, _⟩ := h ⟨0, 0, 10⟩ (by simp) (by decide) (by unfold Seg.has; decide)
  rw [List.mem_singleton.1 hk] at h1
  have : getSegmentIndex one (.node .leaf 0 .leaf) 7 true = .ok (1, 10, ⟨0, 0, 1⟩) := by decide +kernel
  rw [this] at h1
  simp at h1

/-- The code, at the end of a period: the answer is index 8, which does not exist, with the time 32 at which nothing starts; the
iterator gives the duration of segment 9. -/
theorem closest_gap : ∃ it, getSegmentIndex list1 tree1 30 true = .ok (8, 32, it) ∧ takeN list1 1 it = .ok [8] ∧
    (∀ g ∈ log1, g.idx ≠ 8 ∧ g.time ≠ 32) ∧ iterInit list1 tree1 8 true = .err := by
  refine ⟨⟨0, 1, 1⟩, ?_⟩
  decide +kernel

/-- When the times go back, a segment that has the time is not found. -/
theorem times_back : ∃ s, addAll init [⟨0, 100, 10⟩, ⟨1, 0, 10⟩] = .ok s ∧ Reach false s [⟨0, 100, 10⟩, ⟨1, 0, 10⟩] 0 ∧
    getSegmentIndex s (.node .leaf 0 (.node .leaf 1 .leaf)) 5 false = .err := by
  refine ⟨_, rfl, adds _ Reach.init (by decide +kernel) rfl, by decide +kernel⟩

/-! ## C27 -/

/-- A range that cuts a run and a period. -/
def scope1 : Scope := { min := 6, max := 10 }

example : writePeriods list1 tree1 scope1 = .ok [{ time := 10, idx := 6, elts := [⟨10, 1⟩, ⟨12, 1⟩] }, { time := 100, idx := 9, elts := [⟨8, 2⟩] }] := by
  decide +kernel

example : ∃ bs, writePeriods list1 tree1 scope1 = .ok bs ∧
    (∀ alloc r, readList init scope1 alloc (onDisk bs) = .ok r → Reach true r (range scope1 log1) 0) ∧
    (∀ alloc, (∀ b ∈ bs, b.elts.length ≤ alloc) → ∃ r, readList init scope1 alloc (onDisk bs) = .ok r) :=
  save_restore list1_reach (t := tree1) rfl (by decide) (by decide) (by decide) (by decide)

example : range scope1 log1 = [⟨6, 10, 10⟩, ⟨7, 20, 12⟩, ⟨9, 100, 8⟩, ⟨10, 108, 8⟩] := by decide

/-- The list after the restart. -/
def list3 : SL := { nodes := [{ key := 6, time := 10, last := 7, period := 0, elts := [⟨10, 1⟩, ⟨12, 1⟩] },
  { key := 9, time := 100, last := 10, period := 1, elts := [⟨8, 2⟩] }], nodeCount := 2, eltCount := 3, segCount := 4, lastTime := 116, isFirst := false }

theorem list3_restored : (do let bs ← writePeriods list1 tree1 scope1; readList init scope1 5 (onDisk bs)) = .ok list3 := by decide +kernel

/-- Two files, one after the other: the runs at the border are joined. -/
theorem two_files : (do
    let b1 ← writePeriods list1 tree1 ⟨0, 5⟩
    let b2 ← writePeriods list1 tree1 ⟨6, 10⟩
    let r ← readList init ⟨0, 5⟩ 5 (onDisk b1)
    readList r ⟨6, 10⟩ 5 (onDisk b2)) = .ok { list1 with
      nodes := [{ key := 5, time := 0, last := 7, period := 0, elts := [⟨10, 2⟩, ⟨12, 1⟩] },
        { key := 9, time := 100, last := 10, period := 1, elts := [⟨8, 2⟩] }]
      segCount := 5, lastTime := 116 } := by decide +kernel

example : ∃ it, iterInit list1 tree1 5 true = .ok (it, 0) ∧ periodEnd list1 tree1 it 7 = .ok 32 := by
  obtain ⟨it, h1, h2⟩ := period_end_exact list1_reach (t := tree1) rfl (A := []) (g := ⟨5, 0, 10⟩) (M := [⟨6, 10, 10⟩, ⟨7, 20, 12⟩])
    (C := [⟨9, 100, 8⟩, ⟨10, 108, 8⟩, ⟨11, 116, 8⟩]) (k := ⟨7, 20, 12⟩) rfl rfl (by decide) true
  exact ⟨it, h1, h2.trans (by decide)⟩

example : ∃ it, iterInit list1 tree1 5 true = .ok (it, 0) ∧ periodEnd list1 tree1 it 9 = .err := by
  obtain ⟨it, h1, h2⟩ := period_end_exact list1_reach (t := tree1) rfl (A := []) (g := ⟨5, 0, 10⟩) (M := [⟨6, 10, 10⟩, ⟨7, 20, 12⟩, ⟨9, 100, 8⟩])
    (C := [⟨10, 108, 8⟩, ⟨11, 116, 8⟩]) (k := ⟨9, 100, 8⟩) rfl rfl (by decide) true
  exact ⟨it, h1, h2.trans (by decide)⟩

/-! ## C28 -/

/-- A block as bytes: time, index, elements. -/
def disk (time : Int) (idx : Nat) (elts : List Elt) : List UInt8 × Option Nat := (({ time, idx, elts } : Block).bytes, some 0)

/-- Good data after a list, and data that is not good: an empty run, a run behind the range, an index out of the range, a time
before, a header cut off. -/
example : (readList list1 ⟨12, 20⟩ 5 [disk 124 12 [⟨8, 4⟩, ⟨7, 5⟩]]).map (fun s => (segs s).length) = .ok 15 ∧
    readList list1 ⟨12, 20⟩ 5 [disk 124 12 [⟨8, 0⟩]] = .err ∧ readList list1 ⟨12, 20⟩ 5 [disk 124 12 [⟨8, 4⟩, ⟨7, 6⟩]] = .err ∧
    readList list1 ⟨12, 20⟩ 5 [disk 124 21 [⟨8, 4⟩]] = .err ∧ readList list1 ⟨12, 20⟩ 5 [disk 123 12 [⟨8, 4⟩]] = .err ∧
    readList list1 ⟨11, 20⟩ 5 [disk 124 12 [⟨8, 4⟩]] = .err ∧ readList list1 ⟨12, 20⟩ 5 [([1, 2, 3], none)] = .err := by decide +kernel

example : ∀ s', readList list1 ⟨12, 20⟩ 5 [disk 124 12 [⟨8, 4⟩, ⟨7, 5⟩]] = .ok s' → s'.segCount = (segs s').length := fun s' h => by
  obtain ⟨_, _, _, _, _, _, h6⟩ := (restore_partial (alloc := 5) list1_reach (sc := ⟨12, 20⟩) (by decide) (by decide) _).2 s' h
  exact h6

/-- The code takes a second block with an index that was there before: two segments have the index 5. -/
theorem indexes_back : (readList init ⟨0, 100⟩ 5 [disk 0 5 [⟨10, 3⟩], disk 100 5 [⟨10, 2⟩]]).map (fun s => (segs s).map (·.idx)) =
    .ok [5, 6, 7, 5, 6] := by decide +kernel

theorem indexes_back' : ¬ RestoreSafe init ⟨0, 100⟩ 5 [disk 0 5 [⟨10, 3⟩], disk 100 5 [⟨10, 2⟩]] := by
  intro h
  have e : readList init ⟨0, 100⟩ 5 [disk 0 5 [⟨10, 3⟩], disk 100 5 [⟨10, 2⟩]] = .ok
    { nodes := [{ key := 5, time := 0, last := 7, period := 0, elts := [⟨10, 3⟩] }, { key := 5, time := 100, last := 6, period := 1, elts := [⟨10, 2⟩] }],
      nodeCount := 2, eltCount := 2, segCount := 5, lastTime := 120, isFirst := false } := by decide +kernel
  exact absurd (h.2 _ e).1 (by decide +kernel)

/-- The code multiplies a duration and a count from the file as signed 64 bit numbers, and adds the product to a time from
the file: undefined behaviour. -/
theorem overflow : readList init ⟨0, 2 ^ 32 - 2⟩ 5 [disk 0 0 [⟨2 ^ 32 - 1, 2 ^ 32 - 1⟩]] = .ub ∧
    readList init ⟨0, 10⟩ 5 [disk (2 ^ 63 - 1) 0 [⟨1, 1⟩]] = .ub := by decide +kernel

/-- The code, when the announced range ends at the highest 32 bit number: the difference to the end of the range wraps, and a
run of 10 segments and a run of 2^32 - 10 ones become a run with the count 0. -/
theorem count_wraps : ∃ s s', addAll init ((List.range 10).map fun (i : Nat) => ⟨i, (10 * i : Nat), 10⟩) = .ok s ∧
    readList s ⟨10, 2 ^ 32 - 1⟩ 5 [disk 100 10 [⟨10, 2 ^ 32 - 10⟩]] = .ok s' ∧ s'.nodes.map (·.elts) = [[⟨10, 0⟩]] := by
  refine ⟨{ nodes := [{ key := 0, time := 0, last := 9, period := 0, elts := [⟨10, 10⟩] }], nodeCount := 1, eltCount := 1, segCount := 10, lastTime := 100, isFirst := false }, { nodes := [{ key := 0, time := 0, last := 2 ^ 32 - 1, period := 0, elts := [⟨10, 0⟩] }], nodeCount := 1, eltCount := 1, segCount := 2 ^ 32, lastTime := 100 + 10 * (2 ^ 32 - 10), isFirst := false }, ?_⟩
  decide +kernel

end Verif.SegmentList
