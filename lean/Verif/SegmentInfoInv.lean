import Verif.SegmentInfo
import Verif.SegmentListTime

/-!
# The change log of a track as one flat list
-/

namespace Verif.SegmentInfo

open Verif.SegmentList (Tree setLast walk_split)

/-- Spec: the bitrate that a change log gives for a segment, when `b` is the one before all changes. -/
def valAt : Nat → List Elt → Nat → Nat
  | b, [], _ => b
  | b, e :: l, i => if e.idx ≤ i then valAt e.bitrate l i else valAt b l i

/-- All elements of a track, in order. -/
def elts (ns : List Node) : List Elt := ns.flatMap (·.elts)

def Sorted (l : List Elt) : Prop := l.Pairwise fun a b => a.idx < b.idx

structure NodeOk (n : Node) : Prop where
  head : ∃ e l, n.elts = e :: l ∧ n.key = e.idx
  room : n.elts.length ≤ maxElts

/-- The nodes are well formed. -/
structure WF (ns : List Node) : Prop where
  node : ∀ n ∈ ns, NodeOk n
  sorted : Sorted (elts ns)
  idx : ∀ e ∈ elts ns, e.idx < invalid
  bitrate : ∀ e ∈ elts ns, e.bitrate < 2 ^ 32

/-- A tree over the nodes. -/
def TreeOf (ns : List Node) (t : Tree) : Prop := t.walk = List.range ns.length

/-! ## Values -/

theorem valAt_append : ∀ (a c : List Elt) (b i : Nat), valAt b (a ++ c) i = valAt (valAt b a i) c i
  | [], _, _, _ => rfl
  | e :: a, c, b, i => by
    simp only [List.cons_append, valAt]
    split <;> exact valAt_append a c _ i

theorem valAt_gt : ∀ (l : List Elt) (b i : Nat), (∀ e ∈ l, i < e.idx) → valAt b l i = b
  | [], _, _, _ => rfl
  | e :: l, b, i, h => by
    have := h e (by simp)
    rw [valAt, if_neg (by omega)]
    exact valAt_gt l b i (fun x hx => h x (by simp [hx]))

theorem valAt_le : ∀ (l : List Elt) (b i : Nat), (∀ e ∈ l, e.idx ≤ i) → valAt b l i = ((l.getLast?).map (·.bitrate)).getD b
  | [], _, _, _ => rfl
  | e :: l, b, i, h => by
    rw [valAt, if_pos (h e (by simp)), valAt_le l _ i (fun x hx => h x (by simp [hx]))]
    cases l with
    | nil => rfl
    | cons x l =>
      simp [List.getLast?_cons]

/-- The value is the one before all changes or that of an element. -/
theorem valAt_mem : ∀ (l : List Elt) (b i : Nat), valAt b l i = b ∨ ∃ e ∈ l, e.idx ≤ i ∧ valAt b l i = e.bitrate
  | [], _, _ => Or.inl rfl
  | e :: l, b, i => by
    rw [valAt]
    split
    · rename_i h
      rcases valAt_mem l e.bitrate i with h1 | ⟨x, hx, h1⟩
      · exact Or.inr ⟨e, by simp, h, h1⟩
      · exact Or.inr ⟨x, by simp [hx], h1⟩
    · rcases valAt_mem l b i with h1 | ⟨x, hx, h1⟩
      · exact Or.inl h1
      · exact Or.inr ⟨x, by simp [hx], h1⟩

/-- The value at the index of an element of a sorted log. -/
theorem valAt_self {l : List Elt} (h : Sorted l) {e : Elt} (he : e ∈ l) (b : Nat) : valAt b l e.idx = e.bitrate := by
  obtain ⟨p, q, rfl⟩ := List.append_of_mem he
  have h2 := List.pairwise_append.1 h
  rw [valAt_append, valAt, if_pos (Nat.le_refl _), valAt_gt]
  exact fun x hx => (List.pairwise_cons.1 h2.2.1).1 x hx

/-- Elements after the index do not count. -/
theorem valAt_filter : ∀ (l : List Elt) (b i max : Nat), valAt b (l.filter fun e => decide (e.idx ≤ max)) i = valAt b l (min i max)
  | [], _, _, _ => rfl
  | e :: l, b, i, max => by
    by_cases h : e.idx ≤ max
    · rw [List.filter_cons_of_pos (by simpa using h), valAt, valAt, valAt_filter l, valAt_filter l]
      by_cases h1 : e.idx ≤ i
      · rw [if_pos h1, if_pos (by omega)]
      · rw [if_neg h1, if_neg (by omega)]
    · rw [List.filter_cons_of_neg (by simpa using h), valAt, if_neg (by omega), valAt_filter l]

/-! ## Nodes -/

theorem elts_append (a b : List Node) : elts (a ++ b) = elts a ++ elts b := by simp [elts]

theorem elts_cons (n : Node) (b : List Node) : elts (n :: b) = n.elts ++ elts b := by simp [elts]

theorem WF.tail {n : Node} {ns : List Node} (h : WF (n :: ns)) : WF ns := by
  have e := elts_cons n ns
  refine ⟨fun x hx => h.node x (by simp [hx]), ?_, fun x hx => h.idx x (by rw [e]; simp [hx]), fun x hx => h.bitrate x (by rw [e]; simp [hx])⟩
  have := h.sorted
  rw [e] at this
  exact (List.pairwise_append.1 this).2.1

theorem WF.split {a : List Node} {n : Node} {b : List Node} (h : WF (a ++ n :: b)) :
    Sorted (elts a) ∧ Sorted n.elts ∧ Sorted (elts b) ∧ (∀ x ∈ elts a, x.idx < n.key) ∧
    (∀ x ∈ n.elts, n.key ≤ x.idx) ∧ (∀ x ∈ elts b, n.key < x.idx) ∧ (∀ x ∈ n.elts, ∀ y ∈ elts b, x.idx < y.idx) := by
  have hs := h.sorted
  rw [elts_append, elts_cons] at hs
  obtain ⟨s1, s2, s3⟩ := List.pairwise_append.1 hs
  obtain ⟨s4, s5, s6⟩ := List.pairwise_append.1 s2
  obtain ⟨e, l, e1, e2⟩ := (h.node n (by simp)).head
  refine ⟨s1, s4, s5, fun x hx => ?_, fun x hx => ?_, fun x hx => ?_, s6⟩
  · rw [e2]; exact s3 x hx e (by simp [e1])
  · rw [e2]
    rw [e1] at hx s4
    rcases List.mem_cons.1 hx with rfl | hx
    · exact Nat.le_refl _
    · exact Nat.le_of_lt ((List.pairwise_cons.1 s4).1 x hx)
  · rw [e2]; exact s6 e (by simp [e1]) x hx

theorem lookup_spec {ns : List Node} {x : Nat} :
    ∀ (t : Tree) (lo len : Nat), t ≠ .leaf → t.walk = List.range' lo len → lo + len ≤ ns.length →
    (∀ b, ns[lo + len]? = some b → x < b.key) → (∀ a, 0 < lo → ns[lo - 1]? = some a → a.key ≤ x) →
    ∃ i n, lookup ns x t = .ok i ∧ ns[i]? = some n ∧ (n.key ≤ x ∨ i = 0) ∧ ∀ m, ns[i + 1]? = some m → x < m.key ∨ x < n.key
  | .leaf, _, _, h, _, _, _, _ => absurd rfl h
  | .node l i r, lo, len, _, hw, hlen, hhi, hlo => by
    obtain ⟨a, b, e1, e2, e3, e4⟩ := walk_split hw
    have hi : i < ns.length := by omega
    have hn : ns[i]? = some ns[i] := List.getElem?_eq_getElem hi
    generalize ns[i] = n at hn
    unfold lookup
    rw [hn]
    dsimp only
    by_cases h1 : x < n.key
    · rw [if_pos h1]
      cases l with
      | leaf =>
        have ha : a = 0 := by
          have := congrArg List.length e1
          simp [Tree.walk] at this
          omega
        dsimp only
        by_cases h2 : i = 0
        · refine ⟨i - 1, n, rfl, by rw [show i - 1 = i by omega]; exact hn, Or.inr (by omega), fun m _ => Or.inr h1⟩
        · have hp : ns[i - 1]? = some ns[i - 1] := List.getElem?_eq_getElem (by omega)
          refine ⟨i - 1, _, rfl, hp, Or.inl (hlo _ (by omega) (by rw [show lo - 1 = i - 1 by omega]; exact hp)), fun m hm => ?_⟩
          rw [show i - 1 + 1 = i by omega, hn] at hm; injection hm with hm; rw [← hm]; exact Or.inl h1
      | node l' i' r' =>
        exact lookup_spec (.node l' i' r') lo a (by simp) e1 (by omega) (fun u hu => by
          rw [← e2, hn] at hu; injection hu with hu; rw [← hu]; exact h1) hlo
    · rw [if_neg h1]
      cases r with
      | leaf =>
        have hb : b = 0 := by
          have := congrArg List.length e3
          simp [Tree.walk] at this
          omega
        exact ⟨i, n, rfl, hn, Or.inl (by omega), fun m hm => Or.inl (hhi m (by rw [show lo + len = i + 1 by omega]; exact hm))⟩
      | node l' i' r' =>
        exact lookup_spec (.node l' i' r') (lo + a + 1) b (by simp) e3 (by omega) (fun u hu => hhi u (by
          rw [show lo + len = lo + a + 1 + b by omega]; exact hu)) (fun u _ hu => by
            rw [show lo + a + 1 - 1 = i by omega, hn] at hu; injection hu with hu; rw [← hu]; omega)

/-- The skipped elements end before the last one that is not after the index. -/
theorem skip_spec (x : Nat) : ∀ (l : List Elt), l ≠ [] → Sorted l → ∃ a f r, l = a ++ f :: r ∧ skip x l = f :: r ∧
    (∀ e ∈ a, e.idx ≤ x) ∧ (a ≠ [] → f.idx ≤ x) ∧ (∀ e ∈ r, x < e.idx)
  | [], h, _ => absurd rfl h
  | [e], _, _ => ⟨[], e, [], rfl, rfl, by simp, by simp, by simp⟩
  | e :: y :: l, _, hs => by
    rw [skip]
    have h1 := List.pairwise_cons.1 hs
    by_cases h : y.idx ≤ x
    · rw [if_pos h]
      obtain ⟨a, f, r, e1, e2, e3, e4, e5⟩ := skip_spec x (y :: l) (by simp) h1.2
      have hf : f.idx ≤ x := by
        cases a with
        | nil => simp at e1; rw [← e1.1]; exact h
        | cons z a => exact e4 (by simp)
      refine ⟨e :: a, f, r, by rw [e1]; rfl, e2, ?_, fun _ => hf, e5⟩
      intro z hz
      rcases List.mem_cons.1 hz with rfl | hz
      · have := h1.1 y (by simp); omega
      · exact e3 z hz
    · rw [if_neg h]
      refine ⟨[], e, y :: l, rfl, rfl, by simp, by simp, ?_⟩
      intro z hz
      have h2 := List.pairwise_cons.1 h1.2
      rcases List.mem_cons.1 hz with rfl | hz
      · omega
      · have := h2.1 z hz; omega

/-- Where a query starts: at the last element that is not after the index, or at the first one. -/
theorem find_spec {ns : List Node} (h : WF ns) {t : Tree} (ht : TreeOf ns t) (hn : ns ≠ []) (x : Nat) :
    ∃ i n a f r rest, lookup ns x t = .ok i ∧ ns[i]? = some n ∧ skip x n.elts = f :: r ∧ ns.drop (i + 1) = rest ∧
      elts ns = a ++ f :: r ++ elts rest ∧ (∀ e ∈ a, e.idx ≤ x) ∧ (a ≠ [] → f.idx ≤ x) ∧ ∀ e ∈ r ++ elts rest, x < e.idx ∧ f.idx < e.idx := by
  have hl : t ≠ .leaf := by
    rintro rfl
    have := congrArg List.length ht
    simp [Tree.walk] at this
    exact hn (List.length_eq_zero_iff.1 this.symm)
  have ht' : t.walk = List.range' 0 ns.length := by rw [← List.range_eq_range']; exact ht
  obtain ⟨i, n, e1, e2, e3, e4⟩ := lookup_spec (ns := ns) (x := x) t 0 ns.length hl ht' (by omega) (fun b hb => by simp at hb) (fun a ha => by omega)
  have hi : i < ns.length := by
    rcases Nat.lt_or_ge i ns.length with hh | hh
    · exact hh
    · rw [List.getElem?_eq_none hh] at e2; cases e2
  have en : ns = ns.take i ++ n :: ns.drop (i + 1) := by
    rw [List.getElem?_eq_getElem hi] at e2
    injection e2 with e2
    rw [← e2, ← List.drop_eq_getElem_cons hi, List.take_append_drop]
  have hw := h
  rw [en] at hw
  obtain ⟨w1, w2, w3, w4, w5, w6, w7⟩ := hw.split
  obtain ⟨a, f, r, p1, p2, p3, p4, p5⟩ := skip_spec x n.elts (by
    obtain ⟨e, l, q, _⟩ := (h.node n (List.mem_of_getElem? e2)).head; rw [q]; simp) w2
  refine ⟨i, n, elts (ns.take i) ++ a, f, r, ns.drop (i + 1), e1, e2, p2, rfl, ?_, ?_, ?_, ?_⟩
  · conv => lhs; rw [en, elts_append, elts_cons, p1]
    simp
  · intro e he
    rcases List.mem_append.1 he with he | he
    · have h1 := w4 e he
      rcases e3 with e3 | e3
      · omega
      · subst e3; simp [elts] at he
    · exact p3 e he
  · intro ha
    by_cases h1 : a = []
    · rcases e3 with e3 | e3
      · obtain ⟨e, l, q1, q2⟩ := (h.node n (List.mem_of_getElem? e2)).head
        rw [h1, q1] at p1; simp at p1; rw [← p1.1]; omega
      · subst e3; simp [elts, h1] at ha
    · exact p4 h1
  · intro e he
    have hf : f ∈ n.elts := by rw [p1]; simp
    rcases List.mem_append.1 he with he | he
    · refine ⟨p5 e he, ?_⟩
      rw [p1] at w2
      exact (List.pairwise_cons.1 (List.pairwise_append.1 w2).2.1).1 e he
    · refine ⟨?_, w7 f hf e he⟩
      cases hd : ns.drop (i + 1) with
      | nil => rw [hd] at he; simp [elts] at he
      | cons m rest =>
        have hm : ns[i + 1]? = some m := by
          have := List.getElem?_drop (xs := ns) (i := i + 1) (j := 0)
          rw [hd] at this; simpa using this.symm
        rw [hd] at he
        have hw2 : WF ((ns.take i ++ [n]) ++ m :: rest) := by rw [← hd]; simpa using hw
        obtain ⟨_, _, _, v4, v5, v6, _⟩ := hw2.split
        have hme : m.key ≤ e.idx := by
          rw [elts_cons] at he
          rcases List.mem_append.1 he with he | he
          · exact v5 e he
          · exact Nat.le_of_lt (v6 e he)
        have hnm : n.key < m.key := by
          obtain ⟨z, l, q1, q2⟩ := (h.node n (List.mem_of_getElem? e2)).head
          rw [q2]; exact v4 z (by rw [elts_append]; simp [elts, q1])
        rcases e4 m hm with h2 | h2 <;> omega

/-- The value for an index at or after the one that was looked up. -/
theorem find_valAt {a : List Elt} {f : Elt} {r : List Elt} {x : Nat} (h2 : a ≠ [] → f.idx ≤ x)
    {i : Nat} (hi : x ≤ i) (b : Nat) : valAt b (a ++ f :: r) i = valAt b (f :: r) i := by
  cases a with
  | nil => rfl
  | cons y a =>
    have := h2 (by simp)
    rw [valAt_append, valAt, if_pos (by omega), valAt, if_pos (by omega)]

end Verif.SegmentInfo
