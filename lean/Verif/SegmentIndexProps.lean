import Verif.SegmentIndexPersisted

/-!
# Properties of the segment index

C31 (acks come after the outcome of writes), C32 (retention), C40 (truncation), C41 (snapshots are closed once).
-/

namespace Verif.SegmentIndex

/-- The calls. -/
inductive Op
  /-- a new index for a segment -/
  | create (k : Nat)
  /-- a snapshot for the last index -/
  | snap
  /-- the next segment is complete; it is in a timeline or not -/
  | ready (is : Bool)
  /-- the write of a bucket ended -/
  | persisted (a b : Nat) (ok io : Bool)
  /-- the write of an index file ended -/
  | written (io : Bool)
  /-- someone reads the segment -/
  | lock (k : Nat)
  | unlock (k : Nat)
  /-- memory is low -/
  | watermark (script : List (List (Nat × Nat × Bool)))
  /-- segments below an index are in no timeline any more -/
  | segmentFree (min : Nat)
  /-- tracks, connections and frames change in any way -/
  | tracks (ts : List Track) (last : Nat)

def step (s : St) : Op → Res St
  | .create k => .ok (create s k)
  | .snap => createSnap s
  | .ready is => ready s is
  | .persisted a b ok io => persisted s a b ok false io
  | .written io => written s io
  | .lock k => lock s k
  | .unlock k => unlock s k
  | .watermark script => watermark s script
  | .segmentFree min => segmentFree s min
  | .tracks ts last => .ok { s with tracks := ts, lastTrack := last }

/-- How the calls are made.

* create: the low latency segmenter makes indexes in ascending order, not before the next segment (ngx_live_segmenter_ll.c:905-915,
  ngx_live_segment_index.c:325-340).
* snap: ngx_live_segmenter_ll.c:1810 and ngx_live_segment_index.c:333, for a segment that is not complete.
* ready: with persistence, the segment has its snapshot (same places).
* persisted: buckets of a fixed size that are complete, each written once (ngx_live_persist_media.c:1240-1300).
* written: when a write is going on.
* watermark: only writes that are going on are cancelled.
* segmentFree: ngx_live_timeline.c:1697, never above the next segment. -/
def Guard (B : Nat) (s : St) : Op → Prop
  | .create k => s.next ≤ k ∧ ∀ x ∈ s.all, x.key < k
  | .snap => ∃ x, s.all.getLast? = some x ∧ s.next ≤ x.key
  | .ready _ => s.mode ≠ .off → ∀ x, get s.all s.next = some x → x.snap.isSome
  | .persisted a b _ _ => Fresh B s a b
  | .written _ => s.write.isSome
  | .unlock k => ∃ x, find s.all k = some x ∧ x.locks ≠ 0
  | .watermark script => FreshAll B s script.flatten
  | .segmentFree min => min ≤ s.next
  | _ => True

inductive Reach (B : Nat) (mode : Mode) (force n0 : Nat) : St → Prop
  | init : Reach B mode force n0 (init mode force n0)
  | step {s s' : St} {op : Op} : Reach B mode force n0 s → Guard B s op → step s op = .ok s' → Reach B mode force n0 s'

theorem init_inv (B : Nat) (mode : Mode) (force n0 : Nat) : Inv B n0 (init mode force n0) [] ∧ Ex 0 (init mode force n0) := by
  refine ⟨⟨⟨List.Pairwise.nil, (fun _ h => by cases h), rfl, rfl, (fun _ _ ⟨_, h⟩ => by cases h), (fun _ _ h => by cases h)⟩,
    ⟨Good.nil, (fun _ _ _ h => by cases h), (fun _ _ _ h => by cases h), (fun k h1 h2 => by
      have h2 : k < n0 := h2
      omega), Nat.le_refl n0, ?_⟩, ⟨(fun _ _ h => by cases h), (fun _ h => by cases h), (fun _ => ⟨rfl, rfl⟩), (fun h => by cases h)⟩,
    ⟨List.Perm.refl _, rfl⟩⟩, ⟨(fun _ h => by cases h), ?_, (fun h => absurd rfl h), ?_⟩⟩
  · show none = if n0 = n0 then none else _
    rw [if_pos rfl]
  · intro pre k w post h
    simp [init] at h
  · intro pre k w post h
    simp [init] at h

theorem step_inv {B n0 : Nat} {s : St} {op : Op} (h : Inv B n0 s []) (hE : Ex 0 s) (hg : Guard B s op) :
    step s op = .err ∨ ∃ s', step s op = .ok s' ∧ Inv B n0 s' [] ∧ Ex 0 s' ∧ s'.mode = s.mode ∧ s'.force = s.force := by
  cases op with
  | create k =>
    obtain ⟨h1, h2⟩ := create_inv h hE hg.1 hg.2
    exact .inr ⟨_, rfl, h1, h2, rfl, rfl⟩
  | snap =>
    obtain ⟨x, hx, hk⟩ := hg
    cases e : createSnap s with
    | err => exact .inl e
    | ub =>
      unfold createSnap at e
      rw [hx] at e
      dsimp only at e
      repeat' split at e
      all_goals cases e
    | ok s' =>
      obtain ⟨h1, h2⟩ := createSnap_inv h hE hx hk e
      refine .inr ⟨s', e, h1, h2, ?_⟩
      unfold createSnap at e
      rw [hx] at e
      dsimp only at e
      repeat' split at e
      all_goals first | (cases e; done) | (injection e with e; rw [← e]; exact ⟨rfl, rfl⟩)
  | ready is => exact ready_inv h hE fun x hx hm => hg hm x hx
  | persisted a b ok io =>
    obtain ⟨s', e, h1, h2, h3, _⟩ := persisted_inv (ok := ok) (nf := false) (io := io) h hE hg (.inr rfl)
    exact .inr ⟨s', e, h1, h2, h3.mode, h3.force⟩
  | written io =>
    obtain ⟨s', e, h1, h2⟩ := written_inv (io := io) h hg
    exact .inr ⟨s', e, h1, hE.same h2, h2.mode, h2.force⟩
  | lock k =>
    show lock s k = _ ∨ ∃ s', lock s k = _ ∧ _
    unfold lock
    cases hget : get s.all k with
    | none => exact .inl rfl
    | some x =>
      obtain ⟨_, hk, _, hf⟩ := get_spec hget h.rows.sorted
      subst hk
      obtain ⟨h1, h2, _⟩ := lock_inv (n := x.locks + 1) h hE hf
      exact .inr ⟨_, rfl, h1, h2, rfl, rfl⟩
  | unlock k =>
    obtain ⟨x, hf, hl⟩ := hg
    obtain ⟨_, _, _, hk, _⟩ := find_split hf h.rows.sorted
    subst hk
    obtain ⟨h1, h2, _⟩ := lock_inv (n := x.locks - 1) h hE hf
    refine .inr ⟨_, ?_, h1, h2, rfl, rfl⟩
    show unlock s x.key = _
    unfold unlock
    rw [hf]
    dsimp only
    rw [if_neg hl]
  | watermark script =>
    obtain ⟨s', e, h1, h2, h3⟩ := watermark_inv h hE hg
    exact .inr ⟨s', e, h1, h2, h3⟩
  | segmentFree min =>
    obtain ⟨s', e, h1, h2, h3⟩ := segmentFree_inv h hE hg
    exact .inr ⟨s', e, h1, h2, h3.mode, h3.force⟩
  | tracks ts last =>
    exact .inr ⟨_, rfl, ⟨⟨h.rows.sorted, h.rows.row, h.rows.pending, h.rows.done, h.rows.unsettled, h.rows.off⟩,
      ⟨h.logs.good, h.logs.range, h.logs.ready, h.logs.all, h.logs.low, h.logs.last⟩, ⟨h.held.write, h.held.pend, h.held.mode, h.held.pendWrite⟩,
      ⟨h.nums.perm, h.nums.count⟩⟩, ⟨hE.flag, hE.trunc, hE.lost, hE.honest⟩, rfl, rfl⟩

theorem Reach.inv {B : Nat} {mode : Mode} {force n0 : Nat} {s : St} (h : Reach B mode force n0 s) :
    Inv B n0 s [] ∧ Ex 0 s ∧ s.mode = mode ∧ s.force = force := by
  induction h with
  | init => exact ⟨(init_inv B mode force n0).1, (init_inv B mode force n0).2, rfl, rfl⟩
  | step _ hg e ih =>
    obtain ⟨h1, h2, h3, h4⟩ := ih
    rcases step_inv h1 h2 hg with h5 | ⟨s', e', h6, h7, h8, h9⟩
    · rw [h5] at e; cases e
    · rw [e'] at e
      injection e with e
      subst e
      exact ⟨h6, h7, by rw [h8, h3], by rw [h9, h4]⟩

theorem Reach.good {B : Nat} {mode : Mode} {force n0 : Nat} {s : St} (h : Reach B mode force n0 s) : Good mode force s.log := by
  obtain ⟨h1, _, rfl, rfl⟩ := h.inv
  exact h1.logs.good

/-! ## C31 -/

/-- C31, the part that holds. Acks for a snapshot are sent only after its segment is complete; they are for frames that the tracks had reached
then; and then every complete segment up to it was written, given up after an error, or dropped - or the write of the segment itself failed.
In the last case an earlier segment can still be on its way, and the statement is false (`acked_early`). -/
theorem acked_settled_partial {B : Nat} {mode : Mode} {force n0 : Nat} {s : St} (h : Reach B mode force n0 s) {pre post : List Ev} {fs : FSnap}
    {acks : List Ack} (hl : s.log = pre ++ .acked fs acks :: post) :
    ∃ tb : Table, .ready fs.max true tb ∈ pre ∧ (∀ a ∈ acks, ∃ t ∈ tb.tracks, t.id = a.track ∧ t.conn = a.conn ∧ t.frame = a.frame) ∧
      ((∀ i ≤ fs.max, (∃ tb, .ready i true tb ∈ pre) →
          (∃ a b ok, .persisted a b ok ∈ pre ∧ a ≤ i ∧ i < b) ∨ ∃ saved why, .dropped i saved why ∈ pre) ∨
        ∃ a b, .persisted a b false ∈ pre ∧ a ≤ fs.max ∧ fs.max < b) := by
  obtain ⟨tb, h1, h2, h3⟩ := h.good pre _ post hl
  refine ⟨tb, h1, fun a ha => ⟨_, (h2 a ha).1, rfl, rfl, rfl⟩, ?_⟩
  rcases h3 with h3 | h3
  · refine .inl fun i hi hc => ?_
    rcases h3 i hi hc with ⟨ok, a, b, h4⟩ | h4
    · exact .inl ⟨a, b, ok, h4⟩
    · exact .inr h4
  · exact .inr h3

/-- C31. Frames are acked without a snapshot only when every complete segment was written, given up, or dropped. -/
theorem direct_ack_settled {B : Nat} {mode : Mode} {force n0 : Nat} {s : St} (h : Reach B mode force n0 s) (hm : mode ≠ .off) {pre post : List Ev}
    {acks : List Ack} (hl : s.log = pre ++ .ackAll acks :: post) {i : Nat} {tb : Table} (hi : .ready i true tb ∈ pre) :
    (∃ a b ok, .persisted a b ok ∈ pre ∧ a ≤ i ∧ i < b) ∨ ∃ saved why, .dropped i saved why ∈ pre := by
  rcases h.good pre _ post hl hm i ⟨tb, hi⟩ with ⟨ok, a, b, h4⟩ | h4
  · exact .inl ⟨a, b, ok, h4⟩
  · exact .inr h4

/-- C31. No ack is forgotten when a snapshot is acked: a track that has the connection that it had in the snapshot gets an ack, for the frame of
the snapshot. The lists are in the order of ids, and no id is used again. -/
theorem acks_complete {maxId : Nat} : ∀ (ts tf : List Track), ts.Pairwise (fun x y => x.id < y.id) → tf.Pairwise (fun x y => x.id < y.id) →
    (∀ t ∈ ts, t.id ≤ maxId → ∃ f ∈ tf, f.id = t.id) → ∀ t ∈ ts, ∀ f ∈ tf, t.id = f.id → t.conn = f.conn → t.conn ≠ 0 → t.id ≤ maxId →
    ⟨t.id, t.conn, f.frame⟩ ∈ ackLoop maxId ts tf
  | [], _, _, _, _, t, ht => by cases ht
  | u :: ts, tf, hs, hf, hall, t, ht => by
    intro f hfm hid hconn hc hmax
    obtain ⟨hs1, hs2⟩ := List.pairwise_cons.1 hs
    unfold ackLoop
    by_cases hu : u.id > maxId ∨ u.conn = 0
    · rw [if_pos hu]
      rcases List.mem_cons.1 ht with rfl | ht
      · exact (hu.elim (fun h => by omega) hc).elim
      · exact acks_complete ts tf hs2 hf (fun v hv => hall v (by simp [hv])) t ht f hfm hid hconn hc hmax
    · rw [if_neg hu]
      obtain ⟨g, hg, hgu⟩ := hall u (by simp) (by omega)
      obtain ⟨p, q, rfl⟩ := List.append_of_mem hg
      obtain ⟨_, h5, h6⟩ := List.pairwise_append.1 hf
      have hd : (p ++ g :: q).dropWhile (fun f => decide (f.id ≠ u.id)) = g :: q := by
        rw [List.dropWhile_append_of_pos fun y hy => by
          have := h6 y hy g (by simp)
          simp; omega]
        exact List.dropWhile_cons_of_neg (by simp [hgu])
      rw [hd]
      dsimp only
      have hin : ∀ v : Track, u.id ≤ v.id → v ∈ p ++ g :: q → v ∈ g :: q := by
        intro v hv hm
        rcases List.mem_append.1 hm with hm | hm
        · have := h6 v hm g (by simp); omega
        · exact hm
      rcases List.mem_cons.1 ht with rfl | ht
      · have hfg : f = g := by
          rcases List.mem_cons.1 (hin f (by omega) hfm) with h | h
          · exact h
          · have := (List.pairwise_cons.1 h5).1 f h; omega
        subst hfg
        rw [if_pos hconn.symm]
        simp
      · have hlt := hs1 t ht
        refine List.mem_append_right _ (acks_complete ts (g :: q) hs2 h5 (fun v hv hvm => ?_) t ht f (hin f (by omega) hfm) hid hconn hc hmax)
        obtain ⟨w, hw, hwv⟩ := hall v (by simp [hv]) hvm
        have := hs1 v hv
        exact ⟨w, hin w (by omega) hw, hwv⟩

/-! ## C32 -/

/-- C32. A segment is dropped by the retention rule only after the outcome of its write was reported and the configured number of segments
after it were completed. -/
theorem retention {B : Nat} {mode : Mode} {force n0 : Nat} {s : St} (h : Reach B mode force n0 s) {pre post : List Ev} {k : Nat} {saved : Bool}
    (hl : s.log = pre ++ .dropped k saved .retention :: post) :
    (∃ a b ok, .persisted a b ok ∈ pre ∧ a ≤ k ∧ k < b) ∧ ∀ j, k < j → j ≤ k + force → ∃ is tb, .ready j is tb ∈ pre := by
  obtain ⟨⟨ok, a, b, h1⟩, h2⟩ := (h.good pre _ post hl).2 rfl
  exact ⟨⟨a, b, ok, h1⟩, h2⟩

/-! ## C40 -/

/-- C40. Whether the segment that is dropped is taken for saved is what was reported. -/
theorem saved_iff {B : Nat} {mode : Mode} {force n0 : Nat} {s : St} (h : Reach B mode force n0 s) {pre post : List Ev} {k : Nat} {saved : Bool}
    {why : Why} (hl : s.log = pre ++ .dropped k saved why :: post) : saved = true ↔ ∃ a b, .persisted a b true ∈ pre ∧ a ≤ k ∧ k < b := by
  refine ⟨(h.good pre _ post hl).1, fun hr => ?_⟩
  cases saved with
  | true => rfl
  | false => exact absurd hr (h.inv.2.1.honest pre k why post hl)

/-- C40, the part that holds. A segment that leaves the memory by the retention rule or for lack of memory and that is not saved is cut off the
timelines, with all before it, unless it has the index 0 (`first_segment_lost`). -/
theorem lost_truncated_partial {B : Nat} {mode : Mode} {force n0 : Nat} {s : St} (h : Reach B mode force n0 s) {pre post : List Ev} {k : Nat}
    {why : Why} (hl : s.log = pre ++ .dropped k false why :: post) (hw : why = .retention ∨ why = .memory) (hk : k ≠ 0) :
    ∃ k' ≥ k, .truncate k' ∈ post := by
  rcases h.inv.2.1.trunc pre k why post hl hw with h1 | ⟨k', h1, h2⟩
  · omega
  · exact ⟨k', h1, h2⟩

/-- C40. Timelines are cut off only where a segment that is not saved left the memory. -/
theorem truncate_lost {B : Nat} {mode : Mode} {force n0 : Nat} {s : St} (h : Reach B mode force n0 s) {pre post : List Ev} {k : Nat}
    (hl : s.log = pre ++ .truncate k :: post) : ∃ why, .dropped k false why ∈ pre :=
  h.good pre _ post hl

/-! ## C41 -/

/-- C41. No call closes a snapshot a second time, or fails in another undefined way. -/
theorem step_defined {B : Nat} {mode : Mode} {force n0 : Nat} {s : St} (h : Reach B mode force n0 s) {op : Op} (hg : Guard B s op) :
    step s op ≠ .ub := by
  intro e
  obtain ⟨h1, h2, _⟩ := h.inv
  rcases step_inv h1 h2 hg with h5 | ⟨s', e', _⟩
  · rw [h5] at e; cases e
  · rw [e'] at e; cases e

/-- C41. Each snapshot is closed at most once, and the counter tells how many are not closed. -/
theorem snapshots_counted {B : Nat} {mode : Mode} {force n0 : Nat} {s : St} (h : Reach B mode force n0 s) :
    s.closed.Nodup ∧ (∀ id ∈ s.closed, id < s.made) ∧ s.snapshots + s.closed.length = s.made := by
  obtain ⟨h1, _⟩ := h.inv
  have hp := h1.nums.perm
  have hn : (s.closed ++ live s ++ []).Nodup := hp.nodup_iff.2 List.nodup_range
  have hlen := hp.length_eq
  have hc := h1.nums.count
  rw [List.append_nil] at hn hp hlen hc
  refine ⟨(List.nodup_append.1 hn).1, fun id hid => ?_, ?_⟩
  · exact List.mem_range.1 (hp.mem_iff.1 (List.mem_append_left _ hid))
  · rw [List.length_append, List.length_range] at hlen
    omega

/-- The end of a channel while no write goes on. -/
theorem chanLoop_closes : ∀ (xs : List Idx) (A p : List Idx) (s : St), A = p ++ xs → A.Pairwise (fun x y => x.key < y.key) →
    Nums { s with all := xs } [] → ∃ s', chanLoop (xs.map fun x => (x.key, [])) { s with all := A } = .ok s' ∧ Nums { s' with all := [] } [] ∧
      s'.write = s.write ∧ s'.pend = s.pend ∧ s'.log = s.log ∧ s'.made = s.made
  | [], A, p, s, _, _, h => ⟨_, rfl, h, rfl, rfl, rfl, rfl⟩
  | x :: xs, A, p, s, hA, hs, h => by
    rw [List.map_cons]
    unfold chanLoop cancels
    rw [Res.bind_ok]
    have hf : find A x.key = some x := find_mem (by rw [hA]; simp) hs
    dsimp only
    rw [hf]
    dsimp only
    cases hx : x.snap with
    | none =>
      dsimp only
      rw [Res.bind_ok]
      refine chanLoop_closes xs A (p ++ [x]) s (by rw [hA]; simp) hs ?_
      have hl : ids (x :: xs) = ids xs := by rw [ids_cons, hx]; rfl
      refine ⟨?_, ?_⟩
      · have := h.perm
        unfold live at this ⊢
        dsimp only at this ⊢
        rw [hl] at this; exact this
      · have := h.count
        unfold live at this ⊢
        dsimp only at this ⊢
        rw [hl] at this; exact this
    | some sn =>
      dsimp only
      have hl : ids (x :: xs) = sn.fs.id :: ids xs := by rw [ids_cons, hx]; rfl
      have hperm := h.perm
      have hcount := h.count
      unfold live at hperm hcount
      dsimp only at hperm hcount
      rw [hl] at hperm hcount
      have hnc : sn.fs.id ∉ s.closed := by
        intro hc
        have hn := hperm.nodup_iff.2 List.nodup_range
        rw [List.append_assoc, List.nodup_append] at hn
        exact hn.2.2 _ hc sn.fs.id (by simp) rfl
      rw [closeSnap_free, closeFrames_eq (by exact hnc), Res.bind_ok]
      obtain ⟨s', e, h1, h2, h3, h4, h5⟩ := chanLoop_closes xs A (p ++ [x]) (closedSt s sn.fs .free) (by rw [hA]; simp) hs ⟨by
        show (sn.fs.id :: s.closed ++ (ids xs ++ wid s.write ++ pid s.pend) ++ []).Perm (List.range s.made)
        refine List.Perm.trans ?_ hperm
        refine List.perm_iff_count.2 fun a => ?_
        simp only [List.count_append, List.count_cons, List.count_nil]
        omega, by
        show s.snapshots - 1 = (ids xs ++ wid s.write ++ pid s.pend ++ []).length
        rw [hcount]; simp⟩
      refine ⟨s', e, h1, h2, h3, ?_, h5⟩
      rw [h4]
      unfold closedSt
      rw [if_pos rfl, List.append_nil]

/-- C41, a part. When a channel ends while no segment is being written, every snapshot is closed, once, and nothing is acked. With writes going on
a snapshot can be closed twice (`channel_free_twice`). -/
theorem channel_free_partial {B : Nat} {mode : Mode} {force n0 : Nat} {s : St} (h : Reach B mode force n0 s) :
    ∃ s', channelFree s (fun _ => []) = .ok s' ∧ s'.closed.Perm (List.range s.made) ∧ s'.snapshots = 0 ∧ s'.log = s.log := by
  obtain ⟨h1, _⟩ := h.inv
  obtain ⟨s1, e1, h2, h3, h4, h5, h6⟩ := chanLoop_closes s.all s.all [] s rfl h1.rows.sorted h1.nums
  unfold channelFree
  rw [show ({ s with all := s.all } : St) = s from rfl] at e1
  rw [e1, Res.bind_ok]
  have hperm := h2.perm
  have hcount := h2.count
  unfold live at hperm hcount
  dsimp only at hperm hcount
  rw [show ids [] = [] from rfl, List.nil_append, List.append_nil] at hperm hcount
  rw [← h5, ← h6]
  unfold persistFree
  cases hw : s1.write with
  | none =>
    have hp : s1.pend = none := by
      have := h1.held.pendWrite
      rw [← h3, ← h4, hw] at this
      cases hp : s1.pend with
      | none => rfl
      | some p => exact absurd (this (by rw [hp]; rfl)) (by simp)
    rw [hw, hp] at hperm hcount
    dsimp only
    rw [Res.bind_ok, hp]
    exact ⟨s1, rfl, by simpa [wid, pid] using hperm, hcount, rfl⟩
  | some mf =>
    obtain ⟨m, f⟩ := mf
    rw [hw] at hperm hcount
    have hn := hperm.nodup_iff.2 List.nodup_range
    dsimp only
    rw [closeFrames_eq (by
      intro hc
      rw [List.nodup_append] at hn
      exact hn.2.2 _ hc f.id (by simp [wid]) rfl), Res.bind_ok]
    have hlog : ∀ (u : St) (fs : FSnap), (closedSt u fs .free).log = u.log := fun u fs => by unfold closedSt; rw [if_pos rfl, List.append_nil]
    cases hp : s1.pend with
    | none =>
      rw [show (closedSt s1 f .free).pend = s1.pend from rfl, hp]
      rw [hp] at hperm hcount
      refine ⟨_, rfl, ?_, ?_, hlog s1 f⟩
      · refine List.Perm.trans ?_ hperm
        exact (List.perm_append_singleton f.id s1.closed).symm
      · show s1.snapshots - 1 = 0
        rw [hcount]; rfl
    | some p =>
      rw [show (closedSt s1 f .free).pend = s1.pend from rfl, hp]
      rw [hp] at hperm hcount hn
      have hn : (s1.closed ++ [f.id, p.fs.id]).Nodup := hn
      have hperm : (s1.closed ++ [f.id, p.fs.id]).Perm (List.range s1.made) := hperm
      dsimp only
      rw [closeFrames_eq (by
        intro hc
        rw [List.nodup_append] at hn
        rcases List.mem_cons.1 hc with hc | hc
        · have := hn.2.1
          simp [hc] at this
        · exact hn.2.2 _ hc p.fs.id (by simp) rfl)]
      refine ⟨_, rfl, ?_, ?_, ?_⟩
      · refine List.Perm.trans ?_ hperm
        show (p.fs.id :: f.id :: s1.closed).Perm _
        refine List.perm_iff_count.2 fun a => ?_
        simp only [List.count_append, List.count_cons, List.count_nil]
        omega
      · show s1.snapshots - 1 - 1 = 0
        rw [hcount]; rfl
      · rw [hlog, hlog]

end Verif.SegmentIndex
