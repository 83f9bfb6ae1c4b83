import Verif.SegmentIndex

/-!
# What holds of the indexes of a channel
-/

namespace Verif.SegmentIndex

open Verif.SegmentList (Tree)

/-! ## The log -/

/-- The segment was completed, and was in a timeline. -/
def Completed (L : List Ev) (k : Nat) : Prop := ∃ tb, .ready k true tb ∈ L

/-- An outcome of writing the segment was reported. -/
def Reported (L : List Ev) (ok : Bool) (k : Nat) : Prop := ∃ a b, .persisted a b ok ∈ L ∧ a ≤ k ∧ k < b

/-- The segment was written, could not be written, or was dropped. -/
def Settled (L : List Ev) (k : Nat) : Prop := (∃ ok, Reported L ok k) ∨ ∃ saved why, .dropped k saved why ∈ L

/-- What must hold when an event happens, given the events before. -/
def EvOk (mode : Mode) (force : Nat) (L : List Ev) : Ev → Prop
  | .acked fs acks => ∃ tb, .ready fs.max true tb ∈ L ∧ (∀ a ∈ acks, ⟨a.track, a.conn, a.frame⟩ ∈ tb.tracks ∧ a.conn ≠ 0) ∧
      ((∀ i, i ≤ fs.max → Completed L i → Settled L i) ∨ Reported L false fs.max)
  | .ackAll _ => mode ≠ .off → ∀ i, Completed L i → Settled L i
  | .dropped k saved why => (saved = true → Reported L true k) ∧
      (why = .retention → (∃ ok, Reported L ok k) ∧ ∀ j, k < j → j ≤ k + force → ∃ is tb, .ready j is tb ∈ L)
  | .truncate k => ∃ why, .dropped k false why ∈ L
  | _ => True

def Good (mode : Mode) (force : Nat) (L : List Ev) : Prop := ∀ pre e post, L = pre ++ e :: post → EvOk mode force pre e

theorem Good.nil {mode : Mode} {force : Nat} : Good mode force [] := by
  intro pre e post h
  simp at h

theorem Good.snoc {mode : Mode} {force : Nat} {L : List Ev} {e : Ev} (h : Good mode force L) (he : EvOk mode force L e) :
    Good mode force (L ++ [e]) := by
  intro pre e' post hs
  rcases List.eq_nil_or_concat post with rfl | ⟨p', y, rfl⟩
  · obtain ⟨h1, h2⟩ := List.append_inj' hs rfl
    injection h2 with h2 _
    rw [← h1, ← h2]; exact he
  · rw [List.concat_eq_append, show pre ++ e' :: (p' ++ [y]) = (pre ++ e' :: p') ++ [y] by simp] at hs
    exact h pre e' p' (List.append_inj' hs rfl).1

theorem Completed.mono {L L' : List Ev} (h : L ⊆ L') {k : Nat} : Completed L k → Completed L' k
  | ⟨tb, h'⟩ => ⟨tb, h h'⟩

theorem Reported.mono {L L' : List Ev} (h : L ⊆ L') {ok : Bool} {k : Nat} : Reported L ok k → Reported L' ok k
  | ⟨a, b, h1, h2⟩ => ⟨a, b, h h1, h2⟩

theorem Settled.mono {L L' : List Ev} (h : L ⊆ L') {k : Nat} : Settled L k → Settled L' k
  | .inl ⟨ok, h'⟩ => .inl ⟨ok, h'.mono h⟩
  | .inr ⟨s, w, h'⟩ => .inr ⟨s, w, h h'⟩

/-- `L'` has more events, but no segment became complete. -/
structure Grow (L L' : List Ev) : Prop where
  sub : L ⊆ L'
  ready : ∀ k is tb, Ev.ready k is tb ∈ L' → Ev.ready k is tb ∈ L

theorem Grow.refl (L : List Ev) : Grow L L := ⟨List.Subset.refl L, fun _ _ _ h => h⟩

theorem Grow.trans {L L' L'' : List Ev} (h : Grow L L') (h' : Grow L' L'') : Grow L L'' :=
  ⟨fun _ x => h'.sub (h.sub x), fun k i t x => h.ready k i t (h'.ready k i t x)⟩

theorem Grow.completed {L L' : List Ev} (h : Grow L L') {k : Nat} : Completed L' k → Completed L k
  | ⟨tb, h'⟩ => ⟨tb, h.ready k true tb h'⟩

/-- An event that is not a completion. -/
def NotReady : Ev → Prop
  | .ready .. => False
  | _ => True

theorem Grow.app {L evs : List Ev} (h : ∀ e ∈ evs, NotReady e) : Grow L (L ++ evs) :=
  ⟨List.subset_append_left L evs, fun k i t hx => by
    rcases List.mem_append.1 hx with hx | hx
    · exact hx
    · exact (h _ hx).elim⟩

/-! ## The indexes -/

/-- An index is in order. -/
structure RowOk (n0 next : Nat) (L : List Ev) (x : Idx) : Prop where
  low : n0 ≤ x.key
  ok : x.persist = .ok → Reported L true x.key
  error : x.persist = .error → Reported L false x.key
  future : next ≤ x.key → x.freed = false
  gone : x.freed = true → Settled L x.key
  snapNone : ∀ sn, x.snap = some sn → x.persist = .none
  snapMax : ∀ sn, x.snap = some sn → sn.fs.max = sn.max
  snapFuture : ∀ sn, x.snap = some sn → next ≤ x.key → sn.max = x.key ∧ sn.fs.table = none
  snapPast : ∀ sn, x.snap = some sn → x.key < next →
    x.key ≤ sn.max ∧ sn.max < next ∧ ∀ i, x.key < i → i ≤ sn.max → Completed L i → Settled L i
  snapTable : ∀ sn, x.snap = some sn → ∀ tb, sn.fs.table = some tb → .ready sn.max true tb ∈ L

theorem RowOk.grow {n0 next : Nat} {L L' : List Ev} {x : Idx} (h : RowOk n0 next L x) (g : Grow L L') : RowOk n0 next L' x where
  low := h.low
  ok e := (h.ok e).mono g.sub
  error e := (h.error e).mono g.sub
  future := h.future
  gone e := (h.gone e).mono g.sub
  snapNone := h.snapNone
  snapMax := h.snapMax
  snapFuture := h.snapFuture
  snapPast sn e hk := ⟨(h.snapPast sn e hk).1, (h.snapPast sn e hk).2.1, fun i h1 h2 h3 =>
    ((h.snapPast sn e hk).2.2 i h1 h2 (g.completed h3)).mono g.sub⟩
  snapTable sn e tb ht := g.sub (h.snapTable sn e tb ht)

/-- An index without its snapshot, or freed, or with other locks. -/
theorem RowOk.change {n0 next : Nat} {L : List Ev} {x y : Idx} (h : RowOk n0 next L x) (hk : y.key = x.key) (hp : y.persist = x.persist)
    (hs : y.snap = x.snap ∨ y.snap = none) (hf : y.freed = true → x.freed = true ∨ x.key < next ∧ Settled L x.key) : RowOk n0 next L y := by
  have hsn : ∀ sn, y.snap = some sn → x.snap = some sn := by
    intro sn e
    rcases hs with h | h
    · rw [← h]; exact e
    · rw [h] at e; cases e
  refine ⟨by rw [hk]; exact h.low, fun e => by rw [hk]; exact h.ok (by rw [← hp]; exact e), fun e => by
    rw [hk]; exact h.error (by rw [← hp]; exact e), fun e => ?_, fun e => ?_, fun sn e => by rw [hp]; exact h.snapNone sn (hsn sn e),
    fun sn e => h.snapMax sn (hsn sn e), fun sn e => by rw [hk]; exact h.snapFuture sn (hsn sn e), fun sn e => by
    rw [hk]; exact h.snapPast sn (hsn sn e), fun sn e => h.snapTable sn (hsn sn e)⟩
  · cases hy : y.freed with
    | false => rfl
    | true =>
      rcases hf hy with h' | h'
      · rw [h.future (by omega)] at h'; cases h'
      · omega
  · rw [hk]
    exact (hf e).elim h.gone (·.2)

/-- A snapshot of frames may be acked. -/
def Safe (L : List Ev) (fs : FSnap) : Prop := ∀ tb, fs.table = some tb →
  .ready fs.max true tb ∈ L ∧ ((∀ i, i ≤ fs.max → Completed L i → Settled L i) ∨ Reported L false fs.max)

theorem Safe.grow {L L' : List Ev} {fs : FSnap} (h : Safe L fs) (g : Grow L L') : Safe L' fs := by
  intro tb ht
  obtain ⟨h1, h2⟩ := h tb ht
  refine ⟨g.sub h1, ?_⟩
  rcases h2 with h2 | h2
  · exact .inl fun i hi hc => (h2 i hi (g.completed hc)).mono g.sub
  · exact .inr (h2.mono g.sub)

/-- The snapshots of the indexes, by number. -/
def ids (all : List Idx) : List Nat := all.filterMap fun x => x.snap.map (·.fs.id)

def wid (w : Option (Nat × FSnap)) : List Nat := (w.map (·.2.id)).toList

def pid (p : Option Snap) : List Nat := (p.map (·.fs.id)).toList

def live (s : St) : List Nat := ids s.all ++ wid s.write ++ pid s.pend

def keysOf (all : List Idx) (q : Persist → Bool) : List Nat := (all.filter fun x => q x.persist).map (·.key)

/-- The indexes are in order. -/
structure Rows (n0 : Nat) (s : St) : Prop where
  sorted : s.all.Pairwise fun x y => x.key < y.key
  row : ∀ x ∈ s.all, RowOk n0 s.next s.log x
  pending : s.pending = keysOf s.all (· == .none)
  done : s.done = keysOf s.all (· != .none)
  unsettled : s.mode ≠ .off → ∀ i, Completed s.log i → ¬ Settled s.log i →
    ∃ x ∈ s.all, x.key = i ∧ x.persist = .none ∧ x.freed = false ∧ x.snap.isSome
  off : s.mode = .off → ∀ x ∈ s.all, x.snap = none

/-- The log is in order. -/
structure Logs (B n0 : Nat) (s : St) : Prop where
  good : Good s.mode s.force s.log
  range : ∀ a b ok, .persisted a b ok ∈ s.log → b ≤ s.next ∧ ∃ id, a = id * B ∧ b = (id + 1) * B
  ready : ∀ k is tb, .ready k is tb ∈ s.log → n0 ≤ k ∧ k < s.next
  all : ∀ k, n0 ≤ k → k < s.next → ∃ is tb, .ready k is tb ∈ s.log
  low : n0 ≤ s.next
  last : s.last = if s.next = n0 then none else some (s.next - 1)

/-- The snapshots that no index has any more. -/
structure Held (s : St) : Prop where
  write : ∀ m f, s.write = some (m, f) → Safe s.log f
  pend : ∀ p, s.pend = some p → Safe s.log p.fs
  mode : s.mode ≠ .index → s.write = none ∧ s.pend = none
  pendWrite : s.pend.isSome → s.write.isSome

/-- The numbers of snapshots; `lim` are those in the hands of a function. -/
structure Nums (s : St) (lim : List Nat) : Prop where
  perm : (s.closed ++ live s ++ lim).Perm (List.range s.made)
  count : s.snapshots = (live s ++ lim).length

structure Inv (B n0 : Nat) (s : St) (lim : List Nat) : Prop where
  rows : Rows n0 s
  logs : Logs B n0 s
  held : Held s
  nums : Nums s lim

/-! ## Lists of indexes -/

theorem find_split {all : List Idx} {k : Nat} {x : Idx} (h : find all k = some x) (hs : all.Pairwise fun x y => x.key < y.key) :
    ∃ p q, all = p ++ x :: q ∧ x.key = k ∧ (∀ y ∈ p, y.key < k) ∧ ∀ y ∈ q, k < y.key := by
  unfold find at h
  obtain ⟨h1, p, q, h2, h3⟩ := List.find?_eq_some_iff_append.1 h
  have hk : x.key = k := by simpa using h1
  rw [h2] at hs
  obtain ⟨_, h5, h6⟩ := List.pairwise_append.1 hs
  exact ⟨p, q, h2, hk, fun y hy => by rw [← hk]; exact h6 y hy x (by simp), fun y hy => by
    rw [← hk]; exact (List.pairwise_cons.1 h5).1 y hy⟩

theorem find_mem {all : List Idx} {x : Idx} (hx : x ∈ all) (hs : all.Pairwise fun x y => x.key < y.key) : find all x.key = some x := by
  obtain ⟨p, q, rfl⟩ := List.append_of_mem hx
  unfold find
  obtain ⟨_, h5, h6⟩ := List.pairwise_append.1 hs
  refine List.find?_eq_some_iff_append.2 ⟨by simp, p, q, rfl, fun y hy => ?_⟩
  have := h6 y hy x (by simp)
  simp; omega

theorem setIdx_split {p q : List Idx} {x x' : Idx} {k : Nat} (hx : x.key = k) (hx' : x'.key = k) (hp : ∀ y ∈ p, y.key < k)
    (hq : ∀ y ∈ q, k < y.key) : setIdx (p ++ x :: q) x' = p ++ x' :: q := by
  unfold setIdx
  rw [List.map_append, List.map_cons, if_pos (by omega)]
  congr 1
  · conv => rhs; rw [← List.map_id p]
    exact List.map_congr_left fun y hy => by have := hp y hy; rw [if_neg (by omega)]; rfl
  · congr 1
    conv => rhs; rw [← List.map_id q]
    exact List.map_congr_left fun y hy => by have := hq y hy; rw [if_neg (by omega)]; rfl

theorem remove_split {p q : List Idx} {x : Idx} {k : Nat} (hx : x.key = k) (hp : ∀ y ∈ p, y.key < k)
    (hq : ∀ y ∈ q, k < y.key) : (p ++ x :: q).filter (fun y => decide (y.key ≠ k)) = p ++ q := by
  rw [List.filter_append, List.filter_cons_of_neg (by simp [hx])]
  congr 1
  · exact List.filter_eq_self.2 fun y hy => by have := hp y hy; simp; omega
  · exact List.filter_eq_self.2 fun y hy => by have := hq y hy; simp; omega

theorem keysOf_append (a b : List Idx) (q : Persist → Bool) : keysOf (a ++ b) q = keysOf a q ++ keysOf b q := by
  simp [keysOf]

theorem keysOf_cons (x : Idx) (b : List Idx) (q : Persist → Bool) :
    keysOf (x :: b) q = (if q x.persist then [x.key] else []) ++ keysOf b q := by
  unfold keysOf
  by_cases h : q x.persist
  · simp [h]
  · simp [h]

theorem mem_keysOf {all : List Idx} {q : Persist → Bool} {k : Nat} : k ∈ keysOf all q ↔ ∃ x ∈ all, q x.persist ∧ x.key = k := by
  unfold keysOf
  simp only [List.mem_map, List.mem_filter]
  exact ⟨fun ⟨x, ⟨h1, h2⟩, h3⟩ => ⟨x, h1, h2, h3⟩, fun ⟨x, h1, h2, h3⟩ => ⟨x, ⟨h1, h2⟩, h3⟩⟩

theorem keysOf_filter (all : List Idx) (q : Persist → Bool) (k : Nat) :
    keysOf (all.filter fun y => decide (y.key ≠ k)) q = (keysOf all q).filter fun j => decide (j ≠ k) := by
  induction all with
  | nil => rfl
  | cons x l ih =>
    by_cases h : x.key = k
    · rw [List.filter_cons_of_neg (by simp [h]), ih, keysOf_cons, List.filter_append]
      split <;> simp [h]
    · rw [List.filter_cons_of_pos (by simp [h]), keysOf_cons, keysOf_cons, ih, List.filter_append]
      split <;> simp [h]

theorem keysOf_sorted {all : List Idx} (hs : all.Pairwise fun x y => x.key < y.key) (q : Persist → Bool) :
    (keysOf all q).Pairwise (· < ·) := by
  unfold keysOf
  rw [List.pairwise_map]
  exact hs.filter _

theorem ids_append (a b : List Idx) : ids (a ++ b) = ids a ++ ids b := by simp [ids]

theorem ids_cons (x : Idx) (b : List Idx) : ids (x :: b) = (x.snap.map (·.fs.id)).toList ++ ids b := by
  unfold ids
  cases h : x.snap <;> simp [h]

/-! ## Trees -/

def TreeOf (all : List Idx) (t : Tree) : Prop := t.walk = List.range all.length

theorem walk_split {l r : Tree} {i lo len : Nat} (h : (Tree.node l i r).walk = List.range' lo len) :
    ∃ a b, l.walk = List.range' lo a ∧ i = lo + a ∧ r.walk = List.range' (lo + a + 1) b ∧ a + b + 1 = len := by
  rw [Tree.walk] at h
  obtain ⟨a, ha, h1, h2⟩ := List.range'_eq_append_iff.1 h.symm
  cases hb : len - a with
  | zero => rw [hb] at h2; simp at h2
  | succ b =>
    rw [hb, List.range'_succ] at h2
    injection h2 with h3 h4
    exact ⟨a, b, h1, by omega, by rw [h4]; congr 1; omega, by omega⟩

theorem treeFirst_spec {all : List Idx} {k : Nat} (hs : all.Pairwise fun x y => x.key < y.key) :
    ∀ (t : Tree) (lo len : Nat), t ≠ .leaf → t.walk = List.range' lo len → lo + len ≤ all.length →
    (∀ y, all[lo + len]? = some y → k ≤ y.key) → (∀ y, 0 < lo → all[lo - 1]? = some y → y.key < k) →
    ∃ j, treeFirst all k t = .ok (if j < all.length then some j else none) ∧ j ≤ all.length ∧ (∀ y, all[j]? = some y → k ≤ y.key) ∧
      ∀ y, 0 < j → all[j - 1]? = some y → y.key < k
  | .leaf, _, _, h, _, _, _, _ => absurd rfl h
  | .node l i r, lo, len, _, hw, hlen, hhi, hlo => by
    obtain ⟨a, b, e1, e2, e3, e4⟩ := walk_split hw
    have hi : i < all.length := by omega
    have hn : all[i]? = some all[i] := List.getElem?_eq_getElem hi
    generalize all[i] = x at hn
    unfold treeFirst
    rw [hn]
    dsimp only
    by_cases h1 : k < x.key
    · rw [if_pos h1]
      cases l with
      | leaf =>
        have ha : a = 0 := by
          have := congrArg List.length e1
          simp [Tree.walk] at this
          omega
        refine ⟨i, by rw [if_pos hi], by omega, fun y hy => by rw [hn] at hy; injection hy with hy; rw [← hy]; omega, fun y h0 hy => ?_⟩
        exact hlo y (by omega) (by rw [show lo - 1 = i - 1 by omega]; exact hy)
      | node l' i' r' =>
        exact treeFirst_spec hs (.node l' i' r') lo a (by simp) e1 (by omega) (fun u hu => by
          rw [← e2, hn] at hu; injection hu with hu; rw [← hu]; omega) hlo
    · rw [if_neg h1]
      by_cases h2 : k > x.key
      · rw [if_pos h2]
        cases r with
        | leaf =>
          have hb : b = 0 := by
            have := congrArg List.length e3
            simp [Tree.walk] at this
            omega
          exact ⟨i + 1, rfl, by omega, fun y hy => hhi y (by rw [show lo + len = i + 1 by omega]; exact hy), fun y _ hy => by
            rw [show i + 1 - 1 = i by omega, hn] at hy; injection hy with hy; rw [← hy]; omega⟩
        | node l' i' r' =>
          exact treeFirst_spec hs (.node l' i' r') (lo + a + 1) b (by simp) e3 (by omega) (fun u hu => hhi u (by
            rw [show lo + len = lo + a + 1 + b by omega]; exact hu)) (fun u _ hu => by
            rw [show lo + a + 1 - 1 = i by omega, hn] at hu; injection hu with hu; rw [← hu]; omega)
      · rw [if_neg h2]
        refine ⟨i, by rw [if_pos hi], by omega, fun y hy => by rw [hn] at hy; injection hy with hy; rw [← hy]; omega, fun y h0 hy => ?_⟩
        have h3 : i - 1 < all.length := by omega
        have := List.pairwise_iff_getElem.1 hs (i - 1) i h3 hi (by omega)
        rw [List.getElem?_eq_getElem h3] at hy
        rw [List.getElem?_eq_getElem hi] at hn
        injection hy with hy; injection hn with hn
        rw [← hy]; rw [hn] at this; omega

theorem dropWhile_pos {all : List Idx} {k : Nat} (hs : all.Pairwise fun x y => x.key < y.key) {j : Nat} (hj : j ≤ all.length)
    (h1 : ∀ y, all[j]? = some y → k ≤ y.key) (h2 : ∀ y, 0 < j → all[j - 1]? = some y → y.key < k) : first all k = all.drop j := by
  have hall : ∀ y ∈ all.take j, y.key < k := by
    intro y hy
    obtain ⟨m, hm, rfl⟩ := List.mem_iff_getElem.1 hy
    rw [List.getElem_take]
    rw [List.length_take] at hm
    have h3 : j - 1 < all.length := by omega
    have h4 := h2 _ (by omega) (List.getElem?_eq_getElem h3)
    by_cases hmj : m = j - 1
    · subst hmj; exact h4
    · have := List.pairwise_iff_getElem.1 hs m (j - 1) (by omega) h3 (by omega)
      omega
  unfold first
  conv => lhs; rw [← List.take_append_drop j all]
  rw [List.dropWhile_append_of_pos (fun y hy => by simpa using hall y hy)]
  cases hd : all.drop j with
  | nil => rfl
  | cons y l =>
    have : all[j]? = some y := by
      have := congrArg List.head? hd
      rw [List.head?_drop] at this
      exact this
    rw [List.dropWhile_cons_of_neg]
    simpa using h1 y this

/-- The lookup in the tree gives what `first` gives. -/
theorem treeFirst_eq {all : List Idx} (hs : all.Pairwise fun x y => x.key < y.key) {t : Tree} (ht : TreeOf all t) (k : Nat) :
    ∃ j : Option Nat, treeFirst all k t = .ok j ∧ first all k = (match j with | none => [] | some j => all.drop j) := by
  by_cases hl : t = .leaf
  · subst hl
    have : all = [] := by
      cases all with
      | nil => rfl
      | cons x l => simp [TreeOf, Tree.walk, List.range_succ_eq_map] at ht
    subst this
    exact ⟨none, rfl, rfl⟩
  · obtain ⟨j, h1, h2, h3, h4⟩ := treeFirst_spec (k := k) hs t 0 all.length hl (by rw [ht, List.range_eq_range']) (by omega)
      (fun y hy => by simp at hy) (fun y h => by omega)
    refine ⟨_, h1, ?_⟩
    rw [dropWhile_pos hs h2 h3 h4]
    by_cases h : j < all.length
    · rw [if_pos h]
    · rw [if_neg h, List.drop_eq_nil_of_le (by omega)]

theorem treeGet_spec {all : List Idx} {k : Nat} (hs : all.Pairwise fun x y => x.key < y.key) :
    ∀ (t : Tree) (lo len : Nat), t.walk = List.range' lo len → lo + len ≤ all.length →
    (∀ m y, all[m]? = some y → y.key = k → lo ≤ m ∧ m < lo + len) → treeGet all k t = .ok (get all k)
  | .leaf, lo, len, hw, hlen, h => by
    have : len = 0 := by
      have := congrArg List.length hw
      simp [Tree.walk] at this
      omega
    unfold treeGet get
    cases hf : find all k with
    | none => rfl
    | some x =>
      obtain ⟨p, q, h1, h2, _⟩ := find_split hf hs
      have := h p.length x (by rw [h1]; simp) h2
      omega
  | .node l i r, lo, len, hw, hlen, h => by
    obtain ⟨a, b, e1, e2, e3, e4⟩ := walk_split hw
    have hi : i < all.length := by omega
    have hn : all[i]? = some all[i] := List.getElem?_eq_getElem hi
    have hord : ∀ m y, all[m]? = some y → (m < i → y.key < all[i].key) ∧ (i < m → all[i].key < y.key) := by
      intro m y hy
      obtain ⟨hm, rfl⟩ := List.getElem?_eq_some_iff.1 hy
      exact ⟨fun hmi => List.pairwise_iff_getElem.1 hs m i hm hi hmi, fun hmi => List.pairwise_iff_getElem.1 hs i m hi hm hmi⟩
    have hmem : all[i] ∈ all := List.getElem_mem hi
    generalize all[i] = x at hn hord hmem
    unfold treeGet
    rw [hn]
    dsimp only
    by_cases h1 : k < x.key
    · rw [if_pos h1]
      refine treeGet_spec hs l lo a e1 (by omega) fun m y hy hk => ⟨(h m y hy hk).1, ?_⟩
      by_cases hm : m < i
      · omega
      · by_cases hm2 : m = i
        · subst hm2; rw [hn] at hy; injection hy with hy; rw [hy] at h1; omega
        · have := (hord m y hy).2 (by omega); omega
    · rw [if_neg h1]
      by_cases h2 : k > x.key
      · rw [if_pos h2]
        refine treeGet_spec hs r (lo + a + 1) b e3 (by omega) fun m y hy hk => ⟨?_, by have := (h m y hy hk).2; omega⟩
        by_cases hm : i < m
        · omega
        · by_cases hm2 : m = i
          · subst hm2; rw [hn] at hy; injection hy with hy; rw [hy] at h2; omega
          · have := (hord m y hy).1 (by omega); omega
      · rw [if_neg h2]
        have hk : x.key = k := by omega
        unfold get
        rw [← hk, find_mem hmem hs]
        cases hfr : x.freed <;> simp [Option.filter, hfr]

/-- The lookup in the tree gives what `get` gives. -/
theorem treeGet_eq {all : List Idx} (hs : all.Pairwise fun x y => x.key < y.key) {t : Tree} (ht : TreeOf all t) (k : Nat) :
    treeGet all k t = .ok (get all k) :=
  treeGet_spec hs t 0 all.length (by rw [ht, List.range_eq_range']) (by omega) fun m y hy _ => ⟨by omega, by
    obtain ⟨hm, _⟩ := List.getElem?_eq_some_iff.1 hy; omega⟩

end Verif.SegmentIndex
