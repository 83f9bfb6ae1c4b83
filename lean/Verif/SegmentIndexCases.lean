import Verif.SegmentIndexProps

/-!
# Cases of the segment index, and what does not hold
-/

namespace Verif.SegmentIndex

instance (B : Nat) (s : St) (a b : Nat) : Decidable (Fresh B s a b) :=
  decidable_of_iff (0 < B ∧ (a = a / B * B ∧ b = (a / B + 1) * B) ∧ b ≤ s.next ∧ .persisted a b true ∉ s.log ∧ .persisted a b false ∉ s.log) (by
    constructor
    · rintro ⟨h1, h2, h3, h4, h5⟩
      exact ⟨h1, ⟨_, h2⟩, h3, fun ok => by cases ok <;> assumption⟩
    · rintro ⟨h1, ⟨id, rfl, rfl⟩, h3, h4⟩
      rw [Nat.mul_div_cancel _ h1]
      exact ⟨h1, ⟨rfl, rfl⟩, h3, h4 _, h4 _⟩)

instance (B : Nat) (s : St) (cs : List (Nat × Nat × Bool)) : Decidable (FreshAll B s cs) :=
  decidable_of_iff ((∀ c ∈ cs, Fresh B s c.1 c.2.1) ∧ (cs.map (·.1)).Nodup) ⟨fun h => ⟨h.1, h.2⟩, fun h => ⟨h.each, h.nodup⟩⟩

instance (s : St) : Decidable (∃ x, s.all.getLast? = some x ∧ s.next ≤ x.key) :=
  match h : s.all.getLast? with
  | none => isFalse (by simp)
  | some x => if hk : s.next ≤ x.key then isTrue ⟨x, rfl, hk⟩ else isFalse (fun ⟨_, e, h'⟩ => by injection e with e; exact hk (e ▸ h'))

instance (s : St) (k : Nat) : Decidable (∃ x, find s.all k = some x ∧ x.locks ≠ 0) :=
  match h : find s.all k with
  | none => isFalse (by simp)
  | some x => if hk : x.locks ≠ 0 then isTrue ⟨x, rfl, hk⟩ else isFalse (fun ⟨_, e, h'⟩ => by injection e with e; exact hk (e ▸ h'))

instance (s : St) : Decidable (s.mode ≠ .off → ∀ x, get s.all s.next = some x → x.snap.isSome) :=
  match h : get s.all s.next with
  | none => isTrue (by simp)
  | some x => if hk : s.mode ≠ .off → x.snap.isSome then isTrue (fun hm y e => by injection e with e; exact e ▸ hk hm)
    else isFalse (fun h' => hk fun hm => h' hm x rfl)

instance (B : Nat) (s : St) (op : Op) : Decidable (Guard B s op) := by
  cases op <;> unfold Guard <;> infer_instance

/-- Calls one after the other, as long as they are allowed. -/
def run (B : Nat) : List Op → St → Option St
  | [], s => some s
  | op :: ops, s => if Guard B s op then match step s op with
    | .ok s' => run B ops s'
    | _ => none
    else none

theorem run_reach {B : Nat} {mode : Mode} {force n0 : Nat} : ∀ (ops : List Op) (s s' : St), Reach B mode force n0 s → run B ops s = some s' →
    Reach B mode force n0 s'
  | [], s, s', h, e => by injection e with e; exact e ▸ h
  | op :: ops, s, s', h, e => by
    unfold run at e
    split at e
    · rename_i hg
      cases hs : step s op with
      | ok s1 => rw [hs] at e; exact run_reach ops s1 s' (.step h hg hs) e
      | err => rw [hs] at e; cases e
      | ub => rw [hs] at e; cases e
    · cases e

/-- A segment from the first sample to completion. -/
def seg (k : Nat) (is : Bool) : List Op := [.create k, .snap, .ready is]

/-- A track with one connection; its next frame. -/
def at' (f : Nat) : Op := .tracks [⟨1, 7, f⟩] 1

def afterOps (B : Nat) (mode : Mode) (force n0 : Nat) (ops : List Op) : St := (run B ops (init mode force n0)).getD (init mode force n0)

theorem afterOps_reach (B : Nat) (mode : Mode) (force n0 : Nat) (ops : List Op) : Reach B mode force n0 (afterOps B mode force n0 ops) := by
  unfold afterOps
  cases h : run B ops (init mode force n0) with
  | none => exact .init
  | some s => exact run_reach ops _ s .init h

/-- The frames of the track as a table. -/
def tb (f : Nat) : Table := ⟨[⟨1, 7, f⟩], 1⟩

/-! ## C31 -/

/-- Three segments, one per bucket; the writes end in another order. -/
def ordered : List Op := [at' 10] ++ seg 1 true ++ [at' 20] ++ seg 2 true ++ [at' 30] ++ seg 3 true ++ [at' 35] ++
  [.persisted 3 4 true true, .persisted 2 3 true true, .persisted 1 2 true true]

/-- What happens in it before the first segment leaves the memory. -/
abbrev orderedPre : List Ev := [.ready 1 true (tb 10), .ready 2 true (tb 20), .ready 3 true (tb 30), .persisted 3 4 true, .persisted 2 3 true,
  .persisted 1 2 true]

/-- Nothing is acked before the first segment is written; then the frames of the last snapshot are. -/
theorem ordered_log : (afterOps 1 .frames 2 1 ordered).log = [.ready 1 true (tb 10), .ready 2 true (tb 20), .ready 3 true (tb 30),
    .persisted 3 4 true, .persisted 2 3 true, .persisted 1 2 true, .dropped 1 true .retention, .acked ⟨2, 3, some (tb 30)⟩ [⟨1, 7, 30⟩]] := by
  decide +kernel

example : ∃ tbl : Table, Ev.ready 3 true tbl ∈ orderedPre ++ [.dropped 1 true .retention] := by
  obtain ⟨tbl, h, _⟩ := acked_settled_partial (afterOps_reach 1 .frames 2 1 ordered) (pre := orderedPre ++ [.dropped 1 true .retention])
    (fs := ⟨2, 3, some (tb 30)⟩) (acks := [⟨1, 7, 30⟩]) (post := []) ordered_log
  exact ⟨tbl, h⟩

/-- With index files the acks wait for the write of the index. -/
example : (afterOps 1 .index 2 1 ordered).log = [.ready 1 true (tb 10), .ready 2 true (tb 20), .ready 3 true (tb 30),
      .persisted 3 4 true, .persisted 2 3 true, .persisted 1 2 true, .dropped 1 true .retention] ∧
    (afterOps 1 .index 2 1 (ordered ++ [.written true])).log = [.ready 1 true (tb 10), .ready 2 true (tb 20), .ready 3 true (tb 30),
      .persisted 3 4 true, .persisted 2 3 true, .persisted 1 2 true, .dropped 1 true .retention, .acked ⟨2, 3, some (tb 30)⟩ [⟨1, 7, 30⟩]] := by
  decide +kernel

/-- A segment that is in no timeline leaves no snapshot; the frames are acked at once. -/
def unused : List Op := [at' 10] ++ seg 1 true ++ [.persisted 1 2 true true, at' 20] ++ seg 2 false

abbrev unusedPre : List Ev := [.ready 1 true (tb 10), .persisted 1 2 true, .acked ⟨0, 1, some (tb 10)⟩ [⟨1, 7, 10⟩], .ready 2 false (tb 20),
  .dropped 2 false .unused]

theorem unused_log : (afterOps 1 .frames 2 1 unused).log = unusedPre ++ .ackAll [⟨1, 7, 20⟩] :: [] := by
  decide +kernel

example : (∃ a b ok, Ev.persisted a b ok ∈ unusedPre ∧ a ≤ 1 ∧ 1 < b) ∨ ∃ saved why, Ev.dropped 1 saved why ∈ unusedPre :=
  direct_ack_settled (afterOps_reach 1 .frames 2 1 unused) (by decide) unused_log (i := 1) (tb := tb 10) (by decide)

/-- C31 is false as it was stated: the write of segment 2 fails while that of segment 1 still goes on, and the frames of both are acked
(ngx_live_segment_index.c:552-558). -/
def early : List Op := [at' 10] ++ seg 1 true ++ [at' 20] ++ seg 2 true ++ [.persisted 2 3 false true]

theorem acked_early : ∃ (s : St) (pre post : List Ev) (fs : FSnap) (acks : List Ack), Reach 1 .frames 2 1 s ∧ s.log = pre ++ .acked fs acks :: post ∧
    acks ≠ [] ∧ ∃ i ≤ fs.max, (∃ tb, .ready i true tb ∈ pre) ∧
      ¬ ((∃ a b ok, .persisted a b ok ∈ pre ∧ a ≤ i ∧ i < b) ∨ ∃ saved why, .dropped i saved why ∈ pre) := by
  refine ⟨afterOps 1 .frames 2 1 early, [.ready 1 true (tb 10), .ready 2 true (tb 20), .persisted 2 3 false], [], ⟨1, 2, some (tb 20)⟩, [⟨1, 7, 20⟩],
    afterOps_reach 1 .frames 2 1 early, by decide +kernel, by decide, 1, by decide, ⟨tb 10, by simp⟩, ?_⟩
  rintro (⟨a, b, ok, h, h1, h2⟩ | ⟨sv, w, h⟩)
  · simp at h
    omega
  · simp at h

/-- The acks of two of four tracks: the third was disconnected, the fourth is new. -/
example : ackLoop 3 [⟨1, 5, 90⟩, ⟨2, 6, 80⟩, ⟨3, 9, 70⟩, ⟨4, 3, 60⟩] [⟨1, 5, 50⟩, ⟨2, 6, 40⟩, ⟨3, 8, 30⟩] = [⟨1, 5, 50⟩, ⟨2, 6, 40⟩] ∧
    ⟨2, 6, 40⟩ ∈ ackLoop 3 [⟨1, 5, 90⟩, ⟨2, 6, 80⟩, ⟨3, 9, 70⟩, ⟨4, 3, 60⟩] [⟨1, 5, 50⟩, ⟨2, 6, 40⟩, ⟨3, 8, 30⟩] :=
  ⟨by decide, acks_complete (maxId := 3) [⟨1, 5, 90⟩, ⟨2, 6, 80⟩, ⟨3, 9, 70⟩, ⟨4, 3, 60⟩] [⟨1, 5, 50⟩, ⟨2, 6, 40⟩, ⟨3, 8, 30⟩] (by decide) (by decide)
    (by decide) ⟨2, 6, 80⟩ (by decide) ⟨2, 6, 40⟩ (by decide) rfl rfl (by decide) (by decide)⟩

/-- Acks can be held up: a segment that is in no timeline but is being read when it is completed stays in the queue of pending ones, also after the
reader is gone. The snapshot of the next segment is handed to it, and no ack is sent although that segment is written. -/
theorem held_up : (afterOps 1 .frames 2 1 ([at' 10, .create 1, .snap, .lock 1, .ready false, .unlock 1] ++ seg 2 true ++ [.persisted 2 3 true true])).log =
      [.ready 1 false (tb 10), .dropped 1 false .unused, .ackAll [⟨1, 7, 10⟩], .ready 2 true (tb 10), .persisted 2 3 true] ∧
    (afterOps 1 .frames 2 1 ([at' 10, .create 1, .snap, .lock 1, .ready false, .unlock 1] ++ seg 2 true ++ [.persisted 2 3 true true, .segmentFree 2])).log =
      [.ready 1 false (tb 10), .dropped 1 false .unused, .ackAll [⟨1, 7, 10⟩], .ready 2 true (tb 10), .persisted 2 3 true,
        .acked ⟨1, 2, some (tb 10)⟩ [⟨1, 7, 10⟩]] := by
  decide +kernel

/-! ## C32 -/

theorem ordered_drop : (afterOps 1 .frames 2 1 ordered).log =
    orderedPre ++ .dropped 1 true .retention :: [.acked ⟨2, 3, some (tb 30)⟩ [⟨1, 7, 30⟩]] := by
  rw [ordered_log]; rfl

example : (∃ a b ok, Ev.persisted a b ok ∈ orderedPre ∧ a ≤ 1 ∧ 1 < b) ∧ ∀ j, 1 < j → j ≤ 1 + 2 → ∃ is tb, Ev.ready j is tb ∈ orderedPre :=
  retention (afterOps_reach 1 .frames 2 1 ordered) ordered_drop

/-- One more is kept when the configuration says so. -/
example : Ev.dropped 1 true .retention ∉ (afterOps 1 .frames 3 1 ordered).log ∧
    Ev.dropped 1 true .retention ∈ (afterOps 1 .frames 3 1 (ordered ++ seg 4 true)).log := by
  decide +kernel

/-! ## C40 -/

/-- Lack of memory: the write of segment 1 is cancelled, both segments are dropped. -/
def lost : List Op := [at' 10] ++ seg 1 true ++ [at' 20] ++ seg 2 true ++ [.lock 1, .watermark [[(1, 2, true)], []]]

abbrev lostPost : List Ev := [.dropped 2 false .memory, .acked ⟨1, 2, some (tb 20)⟩ [⟨1, 7, 20⟩], .truncate 2]

theorem lost_log : (afterOps 1 .frames 2 1 lost).log = [.ready 1 true (tb 10), .ready 2 true (tb 20), .persisted 1 2 false,
    .acked ⟨0, 1, some (tb 10)⟩ [⟨1, 7, 10⟩]] ++ .dropped 1 false .memory :: lostPost := by
  decide +kernel

example : ∃ k' ≥ 1, Ev.truncate k' ∈ lostPost := lost_truncated_partial (afterOps_reach 1 .frames 2 1 lost) lost_log (.inr rfl) (by decide)

abbrev lostPre : List Ev := [.ready 1 true (tb 10), .ready 2 true (tb 20), .persisted 1 2 false, .acked ⟨0, 1, some (tb 10)⟩ [⟨1, 7, 10⟩],
  .dropped 1 false .memory, .dropped 2 false .memory, .acked ⟨1, 2, some (tb 20)⟩ [⟨1, 7, 20⟩]]

example : ∃ why, Ev.dropped 2 false why ∈ lostPre := truncate_lost (afterOps_reach 1 .frames 2 1 lost) (k := 2) (post := []) (pre := lostPre)
  (by rw [lost_log]; rfl)

example : true = true ↔ ∃ a b, Ev.persisted a b true ∈ orderedPre ∧ a ≤ 1 ∧ 1 < b := saved_iff (afterOps_reach 1 .frames 2 1 ordered) ordered_drop

/-- C40 is false for the segment with index 0: it is dropped, and the timelines are not cut off (0 stands for none,
ngx_live_segment_index.c:165-186 and 612-660). -/
theorem first_segment_lost : ∃ (s : St) (pre post : List Ev), Reach 1 .frames 2 0 s ∧ s.log = pre ++ .dropped 0 false .memory :: post ∧
    ∀ k, .truncate k ∉ post := by
  refine ⟨afterOps 1 .frames 2 0 ([at' 10] ++ seg 0 true ++ [at' 20] ++ seg 1 true ++ [.watermark [[]]]), [.ready 0 true (tb 10), .ready 1 true (tb 20)],
    [.acked ⟨0, 0, some (tb 10)⟩ [⟨1, 7, 10⟩]], afterOps_reach 1 .frames 2 0 _, by decide +kernel, fun k h => ?_⟩
  simp at h

/-! ## C41 -/

example : step (afterOps 1 .frames 2 1 early) (.persisted 1 2 true true) ≠ .ub := step_defined (afterOps_reach 1 .frames 2 1 early) (by decide +kernel)

/-- With two of three snapshots closed. -/
example : (afterOps 1 .frames 2 1 (ordered ++ seg 4 true)).closed = [2, 0, 1] ∧ (afterOps 1 .frames 2 1 (ordered ++ seg 4 true)).made = 4 ∧
    (afterOps 1 .frames 2 1 (ordered ++ seg 4 true)).closed.Nodup :=
  ⟨by decide +kernel, by decide +kernel, (snapshots_counted (afterOps_reach 1 .frames 2 1 (ordered ++ seg 4 true))).1⟩

/-- The end of a channel with an index file being written, another snapshot waiting, and one at a segment. -/
def busy : List Op := [at' 10] ++ seg 1 true ++ [.persisted 1 2 true true] ++ seg 2 true ++ [.persisted 2 3 true true] ++ seg 3 true

example : (afterOps 1 .index 5 1 busy).write.isSome ∧ (afterOps 1 .index 5 1 busy).pend.isSome ∧ (afterOps 1 .index 5 1 busy).snapshots = 3 ∧
    ∃ s', channelFree (afterOps 1 .index 5 1 busy) (fun _ => []) = .ok s' ∧
      s'.closed.Perm (List.range (afterOps 1 .index 5 1 busy).made) ∧ s'.snapshots = 0 ∧ s'.log = (afterOps 1 .index 5 1 busy).log :=
  ⟨by decide +kernel, by decide +kernel, by decide +kernel, channel_free_partial (afterOps_reach 1 .index 5 1 busy)⟩

/-- C41 is false at the end of a channel. Segment 1 is in no timeline but was being read; the snapshot of segment 2 was handed to it. The write of
segment 4 is over, that of segment 3 goes on. The end of the channel closes the snapshot that segment 1 has, without forgetting it; then the write of
segment 3 is cancelled, the snapshot of segment 4 is handed to segment 1, and the first one is closed again (ngx_live_segment_index.c:802-820 and
560-573). -/
def twice : List Op := [at' 10, .create 1, .snap, .lock 1, .ready false] ++ seg 2 true ++ [.persisted 2 3 true true] ++ seg 3 true ++ seg 4 true ++
  [.persisted 4 5 true true]

theorem channel_free_twice : ∃ s, Reach 1 .frames 9 1 s ∧ Fresh 1 s 3 4 ∧ channelFree s (fun k => if k = 3 then [(3, 4, true)] else []) = .ub :=
  ⟨afterOps 1 .frames 9 1 twice, afterOps_reach 1 .frames 9 1 twice, by decide +kernel, by decide +kernel⟩

/-- Trees give the same results as lists. -/
example : treeGet (afterOps 1 .frames 9 1 twice).all 3 (.node (.node .leaf 0 .leaf) 1 (.node .leaf 2 (.node .leaf 3 .leaf))) =
    .ok (get (afterOps 1 .frames 9 1 twice).all 3) :=
  treeGet_eq (by decide +kernel) (by unfold TreeOf; decide +kernel) 3

end Verif.SegmentIndex
