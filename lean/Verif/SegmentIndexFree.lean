import Verif.SegmentIndexInv

/-!
# Closing snapshots and freeing indexes
-/

namespace Verif.SegmentIndex

/-- An ack. -/
def IsAck : Ev → Prop
  | .acked .. => True
  | _ => False

/-- What closing a snapshot leaves as it is. -/
structure Same (s s' : St) : Prop where
  all : s'.all = s.all
  pending : s'.pending = s.pending
  done : s'.done = s.done
  last : s'.last = s.last
  next : s'.next = s.next
  minIdx : s'.minIdx = s.minIdx
  mode : s'.mode = s.mode
  force : s'.force = s.force
  made : s'.made = s.made
  tracks : s'.tracks = s.tracks
  log : ∃ evs, s'.log = s.log ++ evs ∧ ∀ e ∈ evs, IsAck e

theorem Same.refl (s : St) : Same s s := ⟨rfl, rfl, rfl, rfl, rfl, rfl, rfl, rfl, rfl, rfl, [], by simp, by simp⟩

theorem Same.trans {a b c : St} (h : Same a b) (h' : Same b c) : Same a c := by
  obtain ⟨e1, h1, h2⟩ := h.log
  obtain ⟨e2, h3, h4⟩ := h'.log
  refine ⟨by rw [h'.all, h.all], by rw [h'.pending, h.pending], by rw [h'.done, h.done], by rw [h'.last, h.last], by rw [h'.next, h.next],
    by rw [h'.minIdx, h.minIdx], by rw [h'.mode, h.mode], by rw [h'.force, h.force], by rw [h'.made, h.made], by rw [h'.tracks, h.tracks],
    e1 ++ e2, by rw [h3, h1, List.append_assoc], fun e he => ?_⟩
  rcases List.mem_append.1 he with he | he
  · exact h2 e he
  · exact h4 e he

theorem IsAck.notReady {e : Ev} (h : IsAck e) : NotReady e := by
  cases e <;> first | exact h.elim | trivial

theorem Same.grow {s s' : St} (h : Same s s') : Grow s.log s'.log := by
  obtain ⟨evs, h1, h2⟩ := h.log
  rw [h1]
  exact Grow.app fun e he => (h2 e he).notReady

theorem not_ack {s s' : St} (h : Same s s') {e : Ev} (he : ¬ IsAck e) : e ∈ s'.log ↔ e ∈ s.log := by
  obtain ⟨evs, h1, h2⟩ := h.log
  rw [h1, List.mem_append]
  exact ⟨fun h => h.elim id fun h => absurd (h2 e h) he, .inl⟩

theorem Same.settled {s s' : St} (h : Same s s') {i : Nat} : Settled s'.log i → Settled s.log i
  | .inl ⟨ok, a, b, h1, h2⟩ => .inl ⟨ok, a, b, (not_ack h (by exact id)).1 h1, h2⟩
  | .inr ⟨sv, w, h1⟩ => .inr ⟨sv, w, (not_ack h (by exact id)).1 h1⟩

theorem Rows.same {n0 : Nat} {s s' : St} (h : Rows n0 s) (e : Same s s') : Rows n0 s' := by
  refine ⟨by rw [e.all]; exact h.sorted, ?_, by rw [e.pending, e.all]; exact h.pending, by rw [e.done, e.all]; exact h.done, ?_,
    by rw [e.mode, e.all]; exact h.off⟩
  · rw [e.all, e.next]
    exact fun x hx => (h.row x hx).grow e.grow
  · rw [e.mode, e.all]
    exact fun hm i hc hn => h.unsettled hm i (e.grow.completed hc) fun hs => hn (hs.mono e.grow.sub)

/-! ## Closing -/

theorem ackLoop_mem {maxId : Nat} : ∀ (ts tf : List Track) (a : Ack), a ∈ ackLoop maxId ts tf →
    ⟨a.track, a.conn, a.frame⟩ ∈ tf ∧ a.conn ≠ 0 ∧ ∃ t ∈ ts, t.id = a.track ∧ t.conn = a.conn
  | [], _, a, h => by cases h
  | t :: ts, tf, a, h => by
    unfold ackLoop at h
    split at h
    · obtain ⟨h1, h2, t', h3, h4⟩ := ackLoop_mem ts tf a h
      exact ⟨h1, h2, t', by simp [h3], h4⟩
    · rename_i hc
      cases hd : tf.dropWhile fun f => decide (f.id ≠ t.id) with
      | nil => rw [hd] at h; cases h
      | cons f rest =>
        have hsub : ∀ y ∈ f :: rest, y ∈ tf := by
          intro y hy
          rw [← hd] at hy
          exact (List.dropWhile_sublist _).subset hy
        have hf : f.id = t.id := by
          have := List.head?_dropWhile_not (fun f => decide (f.id ≠ t.id)) tf
          rw [hd] at this
          simpa using this
        rw [hd] at h
        dsimp only at h
        rcases List.mem_append.1 h with h | h
        · split at h
          · rename_i hcn
            rw [List.mem_singleton.1 h]
            refine ⟨?_, fun h0 => hc (.inr h0), t, by simp, rfl, rfl⟩
            have : (⟨t.id, t.conn, f.frame⟩ : Track) = f := by rw [← hf, ← hcn]
            dsimp only
            rw [this]; exact hsub f (by simp)
          · cases h
        · obtain ⟨h1, h2, t', h3, h4⟩ := ackLoop_mem ts (f :: rest) a h
          exact ⟨hsub _ h1, h2, t', by simp [h3], h4⟩

/-- The state after a snapshot of frames is closed. -/
def closedSt (s : St) (fs : FSnap) (a : Act) : St :=
  { s with
    log := s.log ++ (if a = .free then [] else ackEv s fs)
    snapshots := s.snapshots - 1
    closed := fs.id :: s.closed }

theorem Nums.fresh {s : St} {id : Nat} {lim : List Nat} (h : Nums s (id :: lim)) : id ∉ s.closed := by
  intro hc
  have hn : (s.closed ++ live s ++ id :: lim).Nodup := h.perm.nodup_iff.2 List.nodup_range
  rw [List.nodup_append] at hn
  exact hn.2.2 id (by simp [hc]) id (by simp) rfl

theorem closeFrames_eq {s : St} {fs : FSnap} {a : Act} (h : fs.id ∉ s.closed) : closeFrames s fs a = .ok (closedSt s fs a) := by
  unfold closeFrames
  rw [if_neg h]; rfl

theorem closedSt_same (s : St) (fs : FSnap) (a : Act) : Same s (closedSt s fs a) := by
  refine ⟨rfl, rfl, rfl, rfl, rfl, rfl, rfl, rfl, rfl, rfl, _, rfl, fun e he => ?_⟩
  split at he
  · cases he
  · unfold ackEv at he
    split at he
    · cases he
    · rw [List.mem_singleton.1 he]; trivial

theorem closedSt_inv {B n0 : Nat} {s : St} {fs : FSnap} {a : Act} {lim : List Nat} (h : Inv B n0 s (fs.id :: lim))
    (hs : a ≠ .free → Safe s.log fs) : Inv B n0 (closedSt s fs a) lim := by
  have e := closedSt_same s fs a
  have hgood : Good s.mode s.force (closedSt s fs a).log := by
    show Good s.mode s.force (s.log ++ _)
    by_cases ha : a = .free
    · rw [if_pos ha, List.append_nil]; exact h.logs.good
    · rw [if_neg ha]
      unfold ackEv
      cases ht : fs.table with
      | none => rw [List.append_nil]; exact h.logs.good
      | some tb =>
        refine h.logs.good.snoc ?_
        obtain ⟨h1, h2⟩ := hs ha tb ht
        exact ⟨tb, h1, fun a ha => ⟨(ackLoop_mem _ _ a ha).1, (ackLoop_mem _ _ a ha).2.1⟩, h2⟩
  refine ⟨h.rows.same e, ⟨hgood, ?_, ?_, ?_, h.logs.low, h.logs.last⟩, ⟨?_, ?_, h.held.mode, h.held.pendWrite⟩, ⟨?_, ?_⟩⟩
  · exact fun a b ok hx => h.logs.range a b ok ((not_ack e (by exact id)).1 hx)
  · exact fun k i t hx => h.logs.ready k i t (e.grow.ready k i t hx)
  · exact fun k h1 h2 => let ⟨i, t, hx⟩ := h.logs.all k h1 h2; ⟨i, t, e.grow.sub hx⟩
  · exact fun m f hw => (h.held.write m f hw).grow e.grow
  · exact fun p hp => (h.held.pend p hp).grow e.grow
  · refine List.Perm.trans ?_ h.nums.perm
    show (fs.id :: s.closed ++ live s ++ lim).Perm (s.closed ++ live s ++ fs.id :: lim)
    exact List.perm_middle.symm
  · have := h.nums.count
    show s.snapshots - 1 = (live s ++ lim).length
    rw [this]; simp

theorem closeFrames_inv {B n0 : Nat} {s : St} {fs : FSnap} {a : Act} {lim : List Nat} (h : Inv B n0 s (fs.id :: lim))
    (hs : a ≠ .free → Safe s.log fs) : ∃ s', closeFrames s fs a = .ok s' ∧ Inv B n0 s' lim ∧ Same s s' :=
  ⟨_, closeFrames_eq h.nums.fresh, closedSt_inv h hs, closedSt_same s fs a⟩

/-- Another snapshot waits to be written. -/
theorem Inv.setPend {B n0 : Nat} {s : St} {p : Option Snap} {l l' : List Nat} (h : Inv B n0 s l) (hm : p.isSome → s.mode = .index)
    (hw : p.isSome → s.write.isSome) (hs : ∀ q, p = some q → Safe s.log q.fs) (hp : (pid p ++ l').Perm (pid s.pend ++ l)) :
    Inv B n0 { s with pend := p } l' := by
  refine ⟨⟨h.rows.sorted, h.rows.row, h.rows.pending, h.rows.done, h.rows.unsettled, h.rows.off⟩, ⟨h.logs.good, h.logs.range, h.logs.ready, h.logs.all,
    h.logs.low, h.logs.last⟩, ⟨h.held.write, hs, fun hx => ⟨(h.held.mode hx).1, ?_⟩, hw⟩, ⟨?_, ?_⟩⟩
  · cases p with
    | none => rfl
    | some q => exact absurd (hm rfl) hx
  · refine List.Perm.trans ?_ h.nums.perm
    show (s.closed ++ (ids s.all ++ wid s.write ++ pid p) ++ l').Perm (s.closed ++ (ids s.all ++ wid s.write ++ pid s.pend) ++ l)
    simp only [List.append_assoc]
    exact ((hp.append_left _).append_left _).append_left _
  · have h1 := h.nums.count
    have h2 := hp.length_eq
    show s.snapshots = (ids s.all ++ wid s.write ++ pid p ++ l').length
    rw [h1]
    simp only [live, List.length_append] at h2 ⊢
    omega

/-- Another snapshot is being written. -/
theorem Inv.setWrite {B n0 : Nat} {s : St} {w : Option (Nat × FSnap)} {l l' : List Nat} (h : Inv B n0 s l) (hm : w.isSome → s.mode = .index)
    (hpw : s.pend.isSome → w.isSome) (hs : ∀ m f, w = some (m, f) → Safe s.log f) (hp : (wid w ++ l').Perm (wid s.write ++ l)) :
    Inv B n0 { s with write := w } l' := by
  refine ⟨⟨h.rows.sorted, h.rows.row, h.rows.pending, h.rows.done, h.rows.unsettled, h.rows.off⟩, ⟨h.logs.good, h.logs.range, h.logs.ready, h.logs.all,
    h.logs.low, h.logs.last⟩, ⟨hs, h.held.pend, fun hx => ⟨?_, (h.held.mode hx).2⟩, hpw⟩, ⟨?_, ?_⟩⟩
  · cases w with
    | none => rfl
    | some q => exact absurd (hm rfl) hx
  · refine List.Perm.trans ?_ h.nums.perm
    show (s.closed ++ (ids s.all ++ wid w ++ pid s.pend) ++ l').Perm (s.closed ++ (ids s.all ++ wid s.write ++ pid s.pend) ++ l)
    simp only [List.append_assoc]
    refine ((?_ : List.Perm _ _).append_left _).append_left _
    refine List.Perm.trans ?_ (List.Perm.trans (hp.append_left (pid s.pend)) ?_)
    · rw [← List.append_assoc, ← List.append_assoc]; exact List.perm_append_comm.append_right _
    · rw [← List.append_assoc, ← List.append_assoc]; exact List.perm_append_comm.append_right _
  · have h1 := h.nums.count
    have h2 := hp.length_eq
    show s.snapshots = (ids s.all ++ wid w ++ pid s.pend ++ l').length
    rw [h1]
    simp only [live, List.length_append] at h2 ⊢
    omega

theorem closeIndex_inv {B n0 : Nat} {s : St} {sn : Snap} {a : Act} {io : Bool} {lim : List Nat} (h : Inv B n0 s (sn.fs.id :: lim))
    (hm : s.mode = .index) (hs : a ≠ .free → Safe s.log sn.fs) :
    ∃ s', closeIndex s sn a io = .ok s' ∧ Inv B n0 s' lim ∧ Same s s' := by
  unfold closeIndex
  cases a with
  | free => exact closeFrames_inv h hs
  | ack =>
    dsimp only
    cases hp : s.pend with
    | some p =>
      have h1 : Inv B n0 { s with pend := some { p with fs := sn.fs } } (p.fs.id :: lim) := h.setPend (fun _ => hm)
        (fun _ => h.held.pendWrite (by rw [hp]; rfl)) (fun q hq => by injection hq with hq; rw [← hq]; exact hs (by simp))
        (by rw [hp]; exact List.Perm.swap _ _ _)
      dsimp only
      rw [closeFrames_eq (by exact h1.nums.fresh), Res.bind_ok]
      refine ⟨_, rfl, closedSt_inv h1 (fun h => absurd rfl h), ?_⟩
      exact ⟨rfl, rfl, rfl, rfl, rfl, rfl, rfl, rfl, rfl, rfl, [], rfl, by simp⟩
    | none =>
      dsimp only
      cases hw : s.write with
      | some mf =>
        obtain ⟨m, f⟩ := mf
        have h1 : Inv B n0 { s with write := some (m, sn.fs) } (f.id :: lim) := h.setWrite (fun _ => hm) (fun _ => rfl)
          (fun m' f' hq => by injection hq with hq; injection hq with _ hq; rw [← hq]; exact hs (by simp))
          (by rw [hw]; exact List.Perm.swap _ _ _)
        dsimp only
        rw [closeFrames_eq (by exact h1.nums.fresh), Res.bind_ok]
        refine ⟨_, rfl, closedSt_inv h1 (fun h => absurd rfl h), ?_⟩
        exact ⟨rfl, rfl, rfl, rfl, rfl, rfl, rfl, rfl, rfl, rfl, [], rfl, by simp⟩
      | none => exact closeFrames_inv h hs
  | write =>
    dsimp only
    cases hw : s.write with
    | some mf =>
      dsimp only
      cases hp : s.pend with
      | some p =>
        have h1 : Inv B n0 { s with pend := some sn } (p.fs.id :: lim) := h.setPend (fun _ => hm) (fun _ => by rw [hw]; rfl)
          (fun q hq => by injection hq with hq; rw [← hq]; exact hs (by simp)) (by rw [hp]; exact List.Perm.swap _ _ _)
        dsimp only
        rw [closeFrames_eq (by exact h1.nums.fresh), Res.bind_ok]
        refine ⟨_, rfl, closedSt_inv h1 (fun h => absurd rfl h), ?_⟩
        exact ⟨rfl, rfl, rfl, rfl, rfl, rfl, rfl, rfl, rfl, rfl, [], rfl, by simp⟩
      | none =>
        dsimp only
        rw [Res.bind_ok]
        refine ⟨_, rfl, h.setPend (fun _ => hm) (fun _ => by rw [hw]; rfl) (fun q hq => by
          injection hq with hq; rw [← hq]; exact hs (by simp)) (by rw [hp]; exact List.Perm.refl _), ?_⟩
        exact ⟨rfl, rfl, rfl, rfl, rfl, rfl, rfl, rfl, rfl, rfl, [], by simp, by simp⟩
    | none =>
      dsimp only
      split
      · exact closeFrames_inv h hs
      · split
        · refine ⟨_, rfl, h.setWrite (fun _ => hm) (fun _ => rfl) (fun m f hq => by
            injection hq with hq; injection hq with _ hq; rw [← hq]; exact hs (by simp)) (by rw [hw]; exact List.Perm.refl _), ?_⟩
          exact ⟨rfl, rfl, rfl, rfl, rfl, rfl, rfl, rfl, rfl, rfl, [], by simp, by simp⟩
        · exact closeFrames_inv h hs

theorem closeSnap_inv {B n0 : Nat} {s : St} {sn : Snap} {a : Act} {io : Bool} {lim : List Nat} (h : Inv B n0 s (sn.fs.id :: lim))
    (hs : a ≠ .free → Safe s.log sn.fs) : ∃ s', closeSnap s sn a io = .ok s' ∧ Inv B n0 s' lim ∧ Same s s' := by
  unfold closeSnap
  split
  · rename_i hm; exact closeIndex_inv h hm hs
  · exact closeFrames_inv h hs

theorem written_inv {B n0 : Nat} {s : St} {io : Bool} (h : Inv B n0 s []) (hw : s.write.isSome) :
    ∃ s', written s io = .ok s' ∧ Inv B n0 s' [] ∧ Same s s' := by
  unfold written
  cases hwe : s.write with
  | none => rw [hwe] at hw; cases hw
  | some mf =>
    obtain ⟨m, f⟩ := mf
    dsimp only
    have hm : s.mode = .index := by
      by_cases hx : s.mode = .index
      · exact hx
      · rw [(h.held.mode hx).1] at hwe; cases hwe
    cases hp : s.pend with
    | none =>
      have h1 : Inv B n0 { s with write := none, pend := none } [f.id] :=
        Inv.setWrite (s := { s with pend := none }) (l := []) (h.setPend (fun h => by cases h) (fun h => by cases h) (fun q h => by cases h)
          (by rw [hp])) (fun h => by cases h) (fun h => by cases h) (fun m f h => by cases h) (by
          show ([] ++ [f.id]).Perm (wid s.write ++ [])
          rw [hwe]; exact List.Perm.refl _)
      rw [closeFrames_eq (by exact h1.nums.fresh), Res.bind_ok]
      have h2 : (closedSt s f .ack).pend = none := hp
      rw [h2]
      exact ⟨_, rfl, closedSt_inv (a := .ack) h1 (fun _ => h.held.write m f hwe), rfl, rfl, rfl, rfl, rfl, rfl, rfl, rfl, rfl, rfl,
        (closedSt_same s f .ack).log⟩
    | some p =>
      have h1 : Inv B n0 { s with write := none, pend := none } [f.id, p.fs.id] :=
        Inv.setWrite (s := { s with pend := none }) (l := [p.fs.id]) (h.setPend (fun h => by cases h) (fun h => by cases h) (fun q h => by cases h)
          (by rw [hp]; exact List.Perm.refl _)) (fun h => by cases h) (fun h => by cases h) (fun m f h => by cases h) (by
          show ([] ++ [f.id, p.fs.id]).Perm (wid s.write ++ [p.fs.id])
          rw [hwe]; exact List.Perm.refl _)
      rw [closeFrames_eq (by exact h1.nums.fresh), Res.bind_ok]
      have h2 : (closedSt s f .ack).pend = some p := hp
      rw [h2]
      have h3 := closedSt_inv (a := .ack) h1 (fun _ => h.held.write m f hwe)
      obtain ⟨s', e1, e2, e3⟩ := closeIndex_inv (io := io) (a := .write) (sn := p) h3 hm (fun _ =>
        (h.held.pend p hp).grow (closedSt_same s f .ack).grow)
      refine ⟨s', e1, e2, Same.trans (closedSt_same s f .ack) ?_⟩
      exact ⟨e3.all, e3.pending, e3.done, e3.last, e3.next, e3.minIdx, e3.mode, e3.force, e3.made, e3.tracks, e3.log⟩

/-! ## Changes of one index -/

theorem Inv.emit {B n0 : Nat} {s : St} {l : List Nat} {e : Ev} (h : Inv B n0 s l) (he : EvOk s.mode s.force s.log e) (hn : NotReady e)
    (hr : ∀ a b ok, e = .persisted a b ok → b ≤ s.next ∧ ∃ id, a = id * B ∧ b = (id + 1) * B) : Inv B n0 (emit s e) l := by
  have g : Grow s.log (s.log ++ [e]) := Grow.app fun e' h' => by rw [List.mem_singleton.1 h']; exact hn
  refine ⟨⟨h.rows.sorted, fun x hx => (h.rows.row x hx).grow g, h.rows.pending, h.rows.done, fun hm i hc hs =>
    h.rows.unsettled hm i (g.completed hc) fun h' => hs (h'.mono g.sub), h.rows.off⟩,
    ⟨h.logs.good.snoc he, fun a b ok hx => ?_, fun k i t hx => h.logs.ready k i t (g.ready k i t hx), fun k h1 h2 =>
      let ⟨i, t, hx⟩ := h.logs.all k h1 h2; ⟨i, t, g.sub hx⟩, h.logs.low, h.logs.last⟩,
    ⟨fun m f hw => (h.held.write m f hw).grow g, fun p hp => (h.held.pend p hp).grow g, h.held.mode, h.held.pendWrite⟩,
    ⟨h.nums.perm, h.nums.count⟩⟩
  rcases List.mem_append.1 hx with hx | hx
  · exact h.logs.range a b ok hx
  · exact hr a b ok (List.mem_singleton.1 hx).symm

/-- The number of the snapshot of an index. -/
def sid (x : Idx) : List Nat := (x.snap.map (·.fs.id)).toList

theorem sorted_put {p q : List Idx} {x x' : Idx} (hs : (p ++ x :: q).Pairwise fun x y => x.key < y.key) (hk : x'.key = x.key) :
    (p ++ x' :: q).Pairwise fun x y => x.key < y.key := by
  obtain ⟨h1, h2, h3⟩ := List.pairwise_append.1 hs
  obtain ⟨h4, h5⟩ := List.pairwise_cons.1 h2
  refine List.pairwise_append.2 ⟨h1, List.pairwise_cons.2 ⟨fun y hy => by rw [hk]; exact h4 y hy, h5⟩, fun a ha y hy => ?_⟩
  rcases List.mem_cons.1 hy with rfl | hy
  · rw [hk]; exact h3 a ha x (by simp)
  · exact h3 a ha y (by simp [hy])

theorem Inv.put {B n0 : Nat} {s : St} {l l' : List Nat} {p q : List Idx} {x x' : Idx} (h : Inv B n0 s l) (ha : s.all = p ++ x :: q)
    (hk : x'.key = x.key) (hp : x'.persist = x.persist) (hr : RowOk n0 s.next s.log x')
    (hu : x.freed = false → x.snap.isSome → (x'.freed = false ∧ x'.snap.isSome) ∨ Settled s.log x.key)
    (ho : s.mode = .off → x'.snap = none) (hl : (sid x' ++ l').Perm (sid x ++ l)) :
    Inv B n0 { s with all := p ++ x' :: q } l' := by
  have hrow := h.rows.row
  have hso := h.rows.sorted
  have hpe := h.rows.pending
  have hdo := h.rows.done
  have hun := h.rows.unsettled
  have hof := h.rows.off
  rw [ha] at hrow hso hpe hdo hun hof
  refine ⟨⟨sorted_put hso hk, fun y hy => ?_, ?_, ?_, fun hm i hc hs => ?_, fun hm y hy => ?_⟩, ⟨h.logs.good, h.logs.range, h.logs.ready,
    h.logs.all, h.logs.low, h.logs.last⟩, ⟨h.held.write, h.held.pend, h.held.mode, h.held.pendWrite⟩, ⟨?_, ?_⟩⟩
  · rcases List.mem_append.1 hy with hy | hy
    · exact hrow y (by simp [hy])
    · rcases List.mem_cons.1 hy with rfl | hy
      · exact hr
      · exact hrow y (by simp [hy])
  · show s.pending = keysOf (p ++ x' :: q) _
    rw [hpe, keysOf_append, keysOf_append, keysOf_cons, keysOf_cons, hk, hp]
  · show s.done = keysOf (p ++ x' :: q) _
    rw [hdo, keysOf_append, keysOf_append, keysOf_cons, keysOf_cons, hk, hp]
  · obtain ⟨y, hy, h1, h2, h3, h4⟩ := hun hm i hc hs
    rcases List.mem_append.1 hy with hy | hy
    · exact ⟨y, List.mem_append_left _ hy, h1, h2, h3, h4⟩
    · rcases List.mem_cons.1 hy with rfl | hy
      · rcases hu h3 h4 with ⟨h5, h6⟩ | h5
        · exact ⟨x', by simp, by rw [hk]; exact h1, by rw [hp]; exact h2, h5, h6⟩
        · exact absurd (h1 ▸ h5) hs
      · exact ⟨y, by simp [hy], h1, h2, h3, h4⟩
  · rcases List.mem_append.1 hy with hy | hy
    · exact hof hm y (by simp [hy])
    · rcases List.mem_cons.1 hy with rfl | hy
      · exact ho hm
      · exact hof hm y (by simp [hy])
  · refine List.Perm.trans ?_ h.nums.perm
    show (s.closed ++ (ids (p ++ x' :: q) ++ wid s.write ++ pid s.pend) ++ l').Perm (s.closed ++ (ids s.all ++ wid s.write ++ pid s.pend) ++ l)
    rw [ha, ids_append, ids_append, ids_cons, ids_cons]
    refine List.perm_iff_count.2 fun a => ?_
    have := hl.count_eq a
    simp only [sid, List.count_append] at this ⊢
    omega
  · have h1 := h.nums.count
    have h2 := hl.length_eq
    show s.snapshots = (ids (p ++ x' :: q) ++ wid s.write ++ pid s.pend ++ l').length
    rw [h1]
    unfold live
    rw [ha, ids_append, ids_append, ids_cons, ids_cons]
    simp only [sid, List.length_append] at h2 ⊢
    omega

theorem Inv.remove {B n0 : Nat} {s : St} {l : List Nat} {p q : List Idx} {x : Idx} (h : Inv B n0 s l) (ha : s.all = p ++ x :: q)
    (hx : x.snap = none) : Inv B n0 (removeIdx s x.key) l ∧ (removeIdx s x.key).all = p ++ q := by
  have hso := h.rows.sorted
  rw [ha] at hso
  obtain ⟨_, h5, h6⟩ := List.pairwise_append.1 hso
  have e : (removeIdx s x.key).all = p ++ q := by
    show s.all.filter _ = _
    rw [ha]
    exact remove_split rfl (fun y hy => h6 y hy x (by simp)) (List.pairwise_cons.1 h5).1
  refine ⟨?_, e⟩
  have hsub : ∀ y ∈ (removeIdx s x.key).all, y ∈ s.all := fun y hy => (List.mem_filter.1 hy).1
  refine ⟨⟨h.rows.sorted.filter _, fun y hy => h.rows.row y (hsub y hy), ?_, ?_, fun hm i hc hs => ?_, fun hm y hy => h.rows.off hm y (hsub y hy)⟩,
    ⟨h.logs.good, h.logs.range, h.logs.ready,
    h.logs.all, h.logs.low, h.logs.last⟩, ⟨h.held.write, h.held.pend, h.held.mode, h.held.pendWrite⟩, ⟨?_, ?_⟩⟩
  · show s.pending.filter _ = keysOf (s.all.filter _) _
    rw [keysOf_filter, h.rows.pending]
  · show s.done.filter _ = keysOf (s.all.filter _) _
    rw [keysOf_filter, h.rows.done]
  · obtain ⟨y, hy, h1, h2, h3, h4⟩ := h.rows.unsettled hm i hc hs
    refine ⟨y, ?_, h1, h2, h3, h4⟩
    rw [e]
    rw [ha] at hy
    rcases List.mem_append.1 hy with hy | hy
    · simp [hy]
    · rcases List.mem_cons.1 hy with rfl | hy
      · rw [hx] at h4; cases h4
      · simp [hy]
  · refine List.Perm.trans ?_ h.nums.perm
    show (s.closed ++ (ids (removeIdx s x.key).all ++ wid s.write ++ pid s.pend) ++ l).Perm (s.closed ++ (ids s.all ++ wid s.write ++ pid s.pend) ++ l)
    rw [e, ha, ids_append, ids_append, ids_cons, hx]
    exact List.Perm.refl _
  · have h1 := h.nums.count
    show s.snapshots = (ids (removeIdx s x.key).all ++ wid s.write ++ pid s.pend ++ l).length
    rw [h1]
    unfold live
    rw [e, ha, ids_append, ids_append, ids_cons, hx]
    rfl

/-! ## Truncation -/

/-- Segments that are dropped by the retention rule or for lack of memory and are not saved are cut off the timelines afterwards,
except those up to `t`. -/
def Trunc (t : Nat) (L : List Ev) : Prop := ∀ pre k w post, L = pre ++ .dropped k false w :: post → (w = .retention ∨ w = .memory) →
  k ≤ t ∨ ∃ k', k ≤ k' ∧ .truncate k' ∈ post

/-- A segment that was saved is not dropped as one that was not. -/
def Honest (L : List Ev) : Prop := ∀ pre k w post, L = pre ++ .dropped k false w :: post → ¬ Reported pre true k

theorem split_snoc {L pre post : List Ev} {e d : Ev} (h : L ++ [e] = pre ++ d :: post) :
    (∃ post', L = pre ++ d :: post' ∧ post = post' ++ [e]) ∨ (d = e ∧ pre = L ∧ post = []) := by
  rcases List.eq_nil_or_concat post with rfl | ⟨p', y, rfl⟩
  · obtain ⟨h1, h2⟩ := List.append_inj' h rfl
    injection h2 with h2 _
    exact .inr ⟨h2.symm, h1.symm, rfl⟩
  · rw [List.concat_eq_append, show pre ++ d :: (p' ++ [y]) = (pre ++ d :: p') ++ [y] by simp] at h
    obtain ⟨h1, h2⟩ := List.append_inj' h rfl
    injection h2 with h2 _
    exact .inl ⟨p', h1, by rw [h2, List.concat_eq_append]⟩

/-- An event that is not a drop of a segment that is not saved. -/
def NotLost : Ev → Prop
  | .dropped _ false _ => False
  | _ => True

theorem Trunc.snoc {t : Nat} {L : List Ev} {e : Ev} (h : Trunc t L) (he : NotLost e) : Trunc t (L ++ [e]) := by
  intro pre k w post hs hw
  rcases split_snoc hs with ⟨post', h1, rfl⟩ | ⟨rfl, _⟩
  · rcases h pre k w post' h1 hw with h2 | ⟨k', h2, h3⟩
    · exact .inl h2
    · exact .inr ⟨k', h2, by simp [h3]⟩
  · exact he.elim

theorem Trunc.other {t : Nat} {L : List Ev} {k : Nat} {b : Bool} {w : Why} (h : Trunc t L) (he : w ≠ .retention ∧ w ≠ .memory) :
    Trunc t (L ++ [.dropped k b w]) := by
  intro pre k' w' post hs hw
  rcases split_snoc hs with ⟨post', h1, rfl⟩ | ⟨h1, _⟩
  · rcases h pre k' w' post' h1 hw with h2 | ⟨k', h2, h3⟩
    · exact .inl h2
    · exact .inr ⟨k', h2, by simp [h3]⟩
  · injection h1 with _ _ h1
    subst h1
    exact (hw.elim he.1 he.2).elim

theorem Trunc.drop {t : Nat} {L : List Ev} {k : Nat} {w : Why} (h : Trunc t L) (hk : t ≤ k) : Trunc k (L ++ [.dropped k false w]) := by
  intro pre k' w' post hs hw
  rcases split_snoc hs with ⟨post', h1, rfl⟩ | ⟨h1, _⟩
  · rcases h pre k' w' post' h1 hw with h2 | ⟨k', h2, h3⟩
    · exact .inl (by omega)
    · exact .inr ⟨k', h2, by simp [h3]⟩
  · injection h1 with h1
    exact .inl (by omega)

theorem Trunc.cut {t : Nat} {L : List Ev} (h : Trunc t L) : Trunc 0 (L ++ [.truncate t]) := by
  intro pre k w post hs hw
  rcases split_snoc hs with ⟨post', h1, rfl⟩ | ⟨h1, _⟩
  · rcases h pre k w post' h1 hw with h2 | ⟨k', h2, h3⟩
    · exact .inr ⟨t, h2, by simp⟩
    · exact .inr ⟨k', h2, by simp [h3]⟩
  · cases h1

theorem Honest.snoc {L : List Ev} {e : Ev} (h : Honest L) (he : NotLost e) : Honest (L ++ [e]) := by
  intro pre k w post hs
  rcases split_snoc hs with ⟨post', h1, _⟩ | ⟨rfl, _⟩
  · exact h pre k w post' h1
  · exact he.elim

theorem Honest.drop {L : List Ev} {k : Nat} {b : Bool} {w : Why} (h : Honest L) (he : b = false → ¬ Reported L true k) :
    Honest (L ++ [.dropped k b w]) := by
  intro pre k' w' post hs
  rcases split_snoc hs with ⟨post', h1, _⟩ | ⟨h1, h2, _⟩
  · exact h pre k' w' post' h1
  · injection h1 with h1 h3 _
    rw [h1, h2]; exact he h3.symm

/-- What holds of drops and of truncation; `t` is the last segment that was lost and is not cut off yet. -/
structure Ex (t : Nat) (s : St) : Prop where
  flag : ∀ x ∈ s.all, Reported s.log true x.key → x.persist = .ok
  trunc : Trunc t s.log
  lost : t ≠ 0 → ∃ w, .dropped t false w ∈ s.log
  honest : Honest s.log

theorem Ex.acks {t : Nat} {s s' : St} (h : Ex t s) (hr : ∀ y ∈ s'.all, ∃ x ∈ s.all, y.key = x.key ∧ (x.persist = .ok → y.persist = .ok))
    (hl : ∃ evs, s'.log = s.log ++ evs ∧ ∀ e ∈ evs, IsAck e) : Ex t s' := by
  obtain ⟨evs, he, ha⟩ := hl
  have key : ∀ (evs : List Ev) (L : List Ev), Trunc t L → Honest L → (∀ e ∈ evs, IsAck e) → Trunc t (L ++ evs) ∧ Honest (L ++ evs) := by
    intro evs
    induction evs with
    | nil => intro L h1 h2 _; rw [List.append_nil]; exact ⟨h1, h2⟩
    | cons e evs ih =>
      intro L h1 h2 h3
      have hn : NotLost e := by
        have := h3 e (by simp)
        cases e <;> first | exact this.elim | trivial
      have := ih (L ++ [e]) (h1.snoc hn) (h2.snoc hn) fun e he => h3 e (by simp [he])
      rw [List.append_assoc] at this
      exact this
  obtain ⟨h1, h2⟩ := key evs s.log h.trunc h.honest ha
  refine ⟨fun y hy hrep => ?_, by rw [he]; exact h1, fun ht => let ⟨w, hw⟩ := h.lost ht; ⟨w, by rw [he]; simp [hw]⟩, by rw [he]; exact h2⟩
  obtain ⟨x, hx, h3, h4⟩ := hr y hy
  refine h4 (h.flag x hx ?_)
  obtain ⟨a, b, h5, h6⟩ := hrep
  rw [he] at h5
  rcases List.mem_append.1 h5 with h5 | h5
  · exact ⟨a, b, h5, by rw [← h3]; exact h6⟩
  · exact (ha _ h5).elim

theorem Ex.same {t : Nat} {s s' : St} (h : Ex t s) (e : Same s s') : Ex t s' :=
  h.acks (by rw [e.all]; exact fun y hy => ⟨y, hy, rfl, id⟩) e.log

/-! ## Freeing an index -/

/-- What freeing an index leaves as it is. -/
structure Kept (s s' : St) : Prop where
  last : s'.last = s.last
  next : s'.next = s.next
  minIdx : s'.minIdx = s.minIdx
  mode : s'.mode = s.mode
  force : s'.force = s.force
  made : s'.made = s.made
  tracks : s'.tracks = s.tracks
  grow : Grow s.log s'.log
  reported : ∀ a b ok, .persisted a b ok ∈ s'.log → .persisted a b ok ∈ s.log

theorem Kept.refl (s : St) : Kept s s := ⟨rfl, rfl, rfl, rfl, rfl, rfl, rfl, Grow.refl _, fun _ _ _ h => h⟩

theorem Kept.trans {a b c : St} (h : Kept a b) (h' : Kept b c) : Kept a c :=
  ⟨by rw [h'.last, h.last], by rw [h'.next, h.next], by rw [h'.minIdx, h.minIdx], by rw [h'.mode, h.mode], by rw [h'.force, h.force],
    by rw [h'.made, h.made], by rw [h'.tracks, h.tracks], h.grow.trans h'.grow, fun x y ok hx => h.reported x y ok (h'.reported x y ok hx)⟩

theorem Same.kept {s s' : St} (h : Same s s') : Kept s s' :=
  ⟨h.last, h.next, h.minIdx, h.mode, h.force, h.made, h.tracks, h.grow, fun _ _ _ hx => (not_ack h (by exact id)).1 hx⟩

theorem Kept.emit {s : St} {e : Ev} (hn : NotReady e) (hp : ∀ a b ok, e ≠ .persisted a b ok) : Kept s (emit s e) :=
  ⟨rfl, rfl, rfl, rfl, rfl, rfl, rfl, Grow.app fun e' h' => by rw [List.mem_singleton.1 h']; exact hn, fun a b ok hx => by
    rcases List.mem_append.1 hx with hx | hx
    · exact hx
    · exact absurd (List.mem_singleton.1 hx).symm (hp a b ok)⟩

/-- The index as it is when it is freed. -/
def gone (x : Idx) : Idx := { x with freed := true, snap := none }

/-- The event of freeing an index. -/
def dropEv (why : Why) (x : Idx) : List Ev := if x.freed then [] else [.dropped x.key (decide (x.persist = .ok)) why]

/-- The state when the snapshot of the index that is freed is closed. -/
def freeSt (s : St) (why : Why) (p : List Idx) (x : Idx) (q : List Idx) : St :=
  { s with log := s.log ++ dropEv why x, all := p ++ gone x :: q }

theorem freeSt_inv {B n0 : Nat} {s : St} {why : Why} {p q : List Idx} {x : Idx} {lim : List Nat} (h : Inv B n0 s lim)
    (ha : s.all = p ++ x :: q) (hk : x.key < s.next)
    (hret : why = .retention → (∃ ok, Reported s.log ok x.key) ∧ ∀ j, x.key < j → j ≤ x.key + s.force → ∃ is tb, .ready j is tb ∈ s.log) :
    Inv B n0 (freeSt s why p x q) (sid x ++ lim) ∧ Kept s (freeSt s why p x q) ∧ Settled (freeSt s why p x q).log x.key := by
  have hrow := h.rows.row x (by rw [ha]; simp)
  by_cases hf : x.freed = true
  · have e : freeSt s why p x q = { s with all := p ++ gone x :: q } := by
      unfold freeSt dropEv
      rw [if_pos hf, List.append_nil]
    rw [e]
    have hg := hrow.gone hf
    refine ⟨h.put ha rfl rfl (hrow.change rfl rfl (.inr rfl) fun _ => .inl hf) (fun _ _ => .inr hg) (fun _ => rfl) (by
      exact List.Perm.refl _), Kept.refl s |> fun k => ⟨k.last, k.next, k.minIdx, k.mode, k.force, k.made, k.tracks, k.grow, k.reported⟩, hg⟩
  · have e : freeSt s why p x q = { emit s (.dropped x.key (decide (x.persist = .ok)) why) with all := p ++ gone x :: q } := by
      unfold freeSt dropEv
      rw [if_neg hf]; rfl
    rw [e]
    have h1 : Inv B n0 (emit s (.dropped x.key (decide (x.persist = .ok)) why)) lim := h.emit
      ⟨fun hs => hrow.ok (by simpa using hs), hret⟩ trivial (fun _ _ _ h => by cases h)
    have hg : Settled (emit s (.dropped x.key (decide (x.persist = .ok)) why)).log x.key :=
      .inr ⟨_, _, List.mem_append_right _ (List.mem_singleton.2 rfl)⟩
    have hrow1 := h1.rows.row x (by rw [show (emit s _).all = s.all from rfl, ha]; simp)
    refine ⟨h1.put ha rfl rfl (hrow1.change rfl rfl (.inr rfl) fun _ => .inr ⟨hk, hg⟩) (fun _ _ => .inr hg) (fun _ => rfl) (by
      exact List.Perm.refl _), ?_, hg⟩
    have k := Kept.emit (s := s) (e := .dropped x.key (decide (x.persist = .ok)) why) trivial (fun _ _ _ h => by cases h)
    exact ⟨k.last, k.next, k.minIdx, k.mode, k.force, k.made, k.tracks, k.grow, k.reported⟩

/-- The value of `truncate` after an index is freed. -/
def newTr (x : Idx) (tr : Nat) : Nat := if x.freed ∨ x.persist = .ok then tr else x.key

theorem freeSt_ex {s : St} {why : Why} {p q : List Idx} {x : Idx} {t t' : Nat} (h : Ex t s) (ha : s.all = p ++ x :: q)
    (ht : (why ≠ .retention ∧ why ≠ .memory ∧ t' = t) ∨ (t ≤ x.key ∧ t' = newTr x t)) : Ex t' (freeSt s why p x q) := by
  have hsub : ∀ y ∈ (freeSt s why p x q).all, ∃ z ∈ s.all, y.key = z.key ∧ (z.persist = .ok → y.persist = .ok) := by
    intro y hy
    rw [ha]
    rcases List.mem_append.1 hy with hy | hy
    · exact ⟨y, by simp [hy], rfl, id⟩
    · rcases List.mem_cons.1 hy with rfl | hy
      · exact ⟨x, by simp, rfl, id⟩
      · exact ⟨y, by simp [hy], rfl, id⟩
  by_cases hf : x.freed = true
  · have e : t' = t := by
      rcases ht with ⟨_, _, h⟩ | ⟨_, h⟩
      · exact h
      · rw [h, newTr, if_pos (.inl hf)]
    rw [e]
    refine h.acks hsub ⟨[], ?_, by simp⟩
    unfold freeSt dropEv
    rw [if_pos hf]
  · have el : (freeSt s why p x q).log = s.log ++ [.dropped x.key (decide (x.persist = .ok)) why] := by
      unfold freeSt dropEv
      rw [if_neg hf]
    have hrep : ∀ k, Reported (freeSt s why p x q).log true k → Reported s.log true k := by
      rintro k ⟨a, b, h1, h2⟩
      rw [el] at h1
      rcases List.mem_append.1 h1 with h1 | h1
      · exact ⟨a, b, h1, h2⟩
      · cases List.mem_singleton.1 h1
    refine ⟨fun y hy hr => ?_, ?_, ?_, ?_⟩
    · obtain ⟨z, hz, h1, h2⟩ := hsub y hy
      exact h2 (h.flag z hz (h1 ▸ hrep _ hr))
    · rw [el]
      rcases ht with ⟨h1, h2, rfl⟩ | ⟨h1, h2⟩
      · exact h.trunc.other ⟨h1, h2⟩
      · by_cases hp : x.persist = .ok
        · rw [h2, newTr, if_pos (.inr hp)]
          exact h.trunc.snoc (by simp [hp, NotLost])
        · rw [h2, newTr, if_neg (by simp [hf, hp])]
          simp only [hp, decide_false]
          exact h.trunc.drop h1
    · rw [el]
      intro h0
      rcases ht with ⟨h1, h2, rfl⟩ | ⟨h1, h2⟩
      · obtain ⟨w, hw⟩ := h.lost h0
        exact ⟨w, by simp [hw]⟩
      · by_cases hp : x.persist = .ok
        · rw [h2, newTr, if_pos (.inr hp)] at h0 ⊢
          obtain ⟨w, hw⟩ := h.lost h0
          exact ⟨w, by simp [hw]⟩
        · rw [h2, newTr, if_neg (by simp [hf, hp])]
          exact ⟨why, by simp [hp]⟩
    · rw [el]
      refine h.honest.drop fun hb hr => ?_
      have := h.flag x (by rw [ha]; simp) hr
      simp [this] at hb

/-- The first part of `free`. -/
def freeMark (s : St) (why : Why) (x : Idx) : St :=
  if x.freed then s else emit { s with all := setIdx s.all { x with freed := true } } (.dropped x.key (decide (x.persist = .ok)) why)

/-- The second part of `free`. -/
def freeClose (s : St) (why : Why) (x : Idx) : Res St :=
  match x.snap with
  | none => .ok (freeMark s why x)
  | some sn => closeSnap { freeMark s why x with all := setIdx (freeMark s why x).all (gone x) } sn .ack false

theorem free_eq {s : St} {why : Why} {k tr : Nat} {x : Idx} (h : find s.all k = some x) (hk : x.key = k) :
    free s why k tr = (freeClose s why x).bind fun s2 => .ok (if x.locks ≠ 0 then s2 else removeIdx s2 k, newTr x tr) := by
  unfold free
  rw [h]
  subst hk
  obtain ⟨key, persist, snap, freed, locks⟩ := x
  cases snap <;> rfl

theorem free_inv {B n0 : Nat} {s : St} {why : Why} {p q : List Idx} {x : Idx} {tr : Nat} {lim : List Nat} (h : Inv B n0 s lim)
    (ha : s.all = p ++ x :: q) (hk : x.key < s.next)
    (hret : why = .retention → (∃ ok, Reported s.log ok x.key) ∧ ∀ j, x.key < j → j ≤ x.key + s.force → ∃ is tb, .ready j is tb ∈ s.log)
    (hs : ∀ sn, x.snap = some sn → sn.fs.table = none ∨ ∀ i, i < x.key → Completed s.log i → Settled s.log i) :
    ∃ s', free s why x.key tr = .ok (s', newTr x tr) ∧ Inv B n0 s' lim ∧ Kept s s' ∧
      s'.all = p ++ (if x.locks ≠ 0 then [gone x] else []) ++ q ∧
      ∀ t t', Ex t s → ((why ≠ .retention ∧ why ≠ .memory ∧ t' = t) ∨ (t ≤ x.key ∧ t' = newTr x t)) → Ex t' s' := by
  obtain ⟨hF, hkept, hset⟩ := freeSt_inv h ha hk hret
  have hso := h.rows.sorted
  have hmem : x ∈ s.all := by rw [ha]; simp
  have hfind : find s.all x.key = some x := find_mem hmem hso
  have hso' := hso
  rw [ha] at hso'
  obtain ⟨_, h5, h6⟩ := List.pairwise_append.1 hso'
  have hp : ∀ y ∈ p, y.key < x.key := fun y hy => h6 y hy x (by simp)
  have hq : ∀ y ∈ q, x.key < y.key := (List.pairwise_cons.1 h5).1
  have hset1 : ∀ x' : Idx, x'.key = x.key → setIdx s.all x' = p ++ x' :: q := fun x' e => by
    rw [ha]; exact setIdx_split rfl e hp hq
  -- closing the snapshot
  have hclose : ∃ s2, freeClose s why x = .ok s2 ∧
      Inv B n0 s2 lim ∧ Same (freeSt s why p x q) s2 := by
    unfold freeClose
    cases hsn : x.snap with
    | none =>
      have hg : gone x = { x with freed := true } := by unfold gone; rw [← hsn]
      refine ⟨freeSt s why p x q, ?_, ?_, Same.refl _⟩
      · dsimp only
        congr 1
        unfold freeSt dropEv freeMark
        by_cases hf : x.freed = true
        · rw [if_pos hf, if_pos hf, List.append_nil]
          have : gone x = x := by rw [hg, ← hf]
          rw [this, ← ha]
        · rw [if_neg hf, if_neg hf, hset1 { x with freed := true } rfl, hg]; rfl
      · have : sid x = [] := by unfold sid; rw [hsn]; rfl
        rw [this] at hF; exact hF
    | some sn =>
      dsimp only
      have e : { freeMark s why x with all := setIdx (freeMark s why x).all (gone x) } = freeSt s why p x q := by
        unfold freeSt dropEv freeMark
        by_cases hf : x.freed = true
        · rw [if_pos hf, if_pos hf, hset1 (gone x) rfl, List.append_nil]
        · rw [if_neg hf, if_neg hf]
          dsimp only [emit]
          rw [hset1 { x with freed := true } rfl, setIdx_split (x := { x with freed := true }) (x' := gone x) (k := x.key) rfl rfl hp hq]
      rw [e]
      have hid : sid x = [sn.fs.id] := by unfold sid; rw [hsn]; rfl
      rw [hid] at hF
      have hrow := h.rows.row x hmem
      refine closeSnap_inv hF fun _ tb htb => ?_
      have hmax := hrow.snapMax sn hsn
      rw [hmax]
      refine ⟨hkept.grow.sub (hrow.snapTable sn hsn tb htb), .inl fun i hi hc => ?_⟩
      by_cases h1 : i < x.key
      · rcases hs sn hsn with h2 | h2
        · rw [h2] at htb; cases htb
        · exact (h2 i h1 (hkept.grow.completed hc)).mono hkept.grow.sub
      · by_cases h3 : i = x.key
        · rw [h3]; exact hset
        · exact ((hrow.snapPast sn hsn hk).2.2 i (by omega) hi (hkept.grow.completed hc)).mono hkept.grow.sub
  obtain ⟨s2, e1, h2, hsame⟩ := hclose
  have hall : s2.all = p ++ gone x :: q := hsame.all
  obtain ⟨hrem, hremall⟩ := h2.remove hall rfl
  have heq : free s why x.key tr = .ok (if x.locks ≠ 0 then s2 else removeIdx s2 x.key, newTr x tr) := by
    rw [free_eq hfind rfl, e1]; rfl
  refine ⟨_, heq, ?_, ?_, ?_, fun t t' hE ht => ?_⟩
  · split
    · exact h2
    · exact hrem
  · refine hkept.trans (hsame.kept.trans ?_)
    split
    · exact Kept.refl _
    · exact ⟨rfl, rfl, rfl, rfl, rfl, rfl, rfl, Grow.refl _, fun _ _ _ h => h⟩
  · split
    · rw [hall]; simp
    · rw [List.append_nil]; exact hremall
  · have hE2 := (freeSt_ex hE ha ht).same hsame
    split
    · exact hE2
    · exact hE2.acks (fun y hy => ⟨y, (List.mem_filter.1 hy).1, rfl, id⟩) ⟨[], (List.append_nil _).symm, by simp⟩

end Verif.SegmentIndex
