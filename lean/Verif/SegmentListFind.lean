import Verif.SegmentListInv

/-!
# Segment list: lookups and iterators
-/

namespace Verif.SegmentList

/-- The tree is over the nodes of the list. -/
def TreeOf (s : SL) (t : Tree) : Prop := t.walk = List.range s.nodes.length

/-! ## Iterators -/

def Iter.Ok (s : SL) (it : Iter) : Prop :=
  ∃ n e, s.nodes[it.node]? = some n ∧ n.elts[it.elt]? = some e ∧ it.off ≤ e.count

/-- The durations that are ahead of an iterator. -/
def ahead (s : SL) (it : Iter) : List Nat :=
  match s.nodes[it.node]? with
  | none => []
  | some n => match n.elts[it.elt]? with
    | none => []
    | some e => List.replicate (e.count - it.off) e.dur ++ durs (n.elts.drop (it.elt + 1)) ++
        (s.nodes.drop (it.node + 1)).flatMap (fun m => durs m.elts)

theorem ahead_eq {s : SL} {it : Iter} {n : Node} {e : Elt} (hn : s.nodes[it.node]? = some n) (he : n.elts[it.elt]? = some e) :
    ahead s it = List.replicate (e.count - it.off) e.dur ++ durs (n.elts.drop (it.elt + 1)) ++
        (s.nodes.drop (it.node + 1)).flatMap (fun m => durs m.elts) := by
  unfold ahead; rw [hn]; dsimp only; rw [he]

theorem drop_of_get {α : Type} {l : List α} {i : Nat} {x : α} (h : l[i]? = some x) : l.drop i = x :: l.drop (i + 1) := by
  obtain ⟨hi, rfl⟩ := List.getElem?_eq_some_iff.1 h
  exact List.drop_eq_getElem_cons hi

theorem drop_of_none {α : Type} {l : List α} {i : Nat} (h : l[i]? = none) : l.drop i = [] :=
  List.drop_eq_nil_of_le (List.getElem?_eq_none_iff.1 h)

/-- Moving on does not change what is ahead, and the element is the one to come. -/
theorem moveNext_spec {mono : Bool} {s : SL} (h : Inv mono s) {it : Iter} (ho : it.Ok s) :
    (ahead s it = [] ∧ moveNext s it = .ub) ∨
    ∃ it' e n, moveNext s it = .ok (it', e) ∧ s.nodes[it'.node]? = some n ∧ n.elts[it'.elt]? = some e ∧ it'.off < e.count ∧
      ahead s it' = ahead s it := by
  obtain ⟨n, e, hn, he, hoff⟩ := ho
  have hnm := List.mem_of_getElem? hn
  have hno := h.ok n hnm
  by_cases hc : it.off < e.count
  · right
    exact ⟨it, e, n, by simp only [moveNext, hn, he, if_pos hc], hn, he, hc, rfl⟩
  · have hoe : e.count - it.off = 0 := by omega
    have ha : ahead s it = durs (n.elts.drop (it.elt + 1)) ++ (s.nodes.drop (it.node + 1)).flatMap (fun m => durs m.elts) := by
      rw [ahead_eq hn he, hoe]; rfl
    cases hx : n.elts[it.elt + 1]? with
    | some e' =>
      right
      have hp := hno.pos e' (List.mem_of_getElem? hx)
      refine ⟨⟨it.node, it.elt + 1, 0⟩, e', n, by simp only [moveNext, hn, he, if_neg hc, hx], hn, hx, hp, ?_⟩
      rw [ahead_eq (it := ⟨it.node, it.elt + 1, 0⟩) hn hx, ha, drop_of_get hx, durs_cons]
      rfl
    | none =>
      rw [drop_of_none hx, durs_nil, List.nil_append] at ha
      cases hm : s.nodes[it.node + 1]? with
      | none =>
        left
        rw [drop_of_none hm] at ha
        exact ⟨ha, by simp only [moveNext, hn, he, if_neg hc, hx, hm]⟩
      | some m =>
        right
        have hmo := h.ok m (List.mem_of_getElem? hm)
        cases hz : m.elts[0]? with
        | none =>
          have := List.getElem?_eq_none_iff.1 hz
          exact absurd (List.eq_nil_of_length_eq_zero (Nat.le_zero.1 this)) hmo.ne
        | some e' =>
          have hp := hmo.pos e' (List.mem_of_getElem? hz)
          refine ⟨⟨it.node + 1, 0, 0⟩, e', m, by simp only [moveNext, hn, he, if_neg hc, hx, hm, hz], hm, hz, hp, ?_⟩
          rw [ahead_eq (it := ⟨it.node + 1, 0, 0⟩) hm hz, ha, drop_of_get hm, List.flatMap_cons]
          have : durs m.elts = List.replicate e'.count e'.dur ++ durs (m.elts.drop 1) := by
            rw [← durs_cons, ← drop_of_get hz, List.drop_zero]
          rw [this]
          rfl

theorem getOne_spec {mono : Bool} {s : SL} (h : Inv mono s) {it : Iter} (ho : it.Ok s) :
    (ahead s it = [] ∧ getOne s it = .ub) ∨
    ∃ d it', getOne s it = .ok (d, it') ∧ ahead s it = d :: ahead s it' ∧ it'.Ok s := by
  rcases moveNext_spec h ho with ⟨h1, h2⟩ | ⟨it', e, n, h1, h2, h3, h4, h5⟩
  · exact .inl ⟨h1, by unfold getOne; rw [h2]; rfl⟩
  · right
    refine ⟨e.dur, { it' with off := it'.off + 1 }, by unfold getOne; rw [h1]; rfl, ?_, n, e, h2, h3, h4⟩
    rw [← h5, ahead_eq h2 h3, ahead_eq (it := { it' with off := it'.off + 1 }) h2 h3]
    dsimp only
    rw [show e.count - it'.off = (e.count - (it'.off + 1)) + 1 by omega, List.replicate_succ]
    rfl

theorem getElement_spec {mono : Bool} {s : SL} (h : Inv mono s) {it : Iter} (ho : it.Ok s) :
    (ahead s it = [] ∧ getElement s it = .ub) ∨
    ∃ e it', getElement s it = .ok (e, it') ∧ ahead s it = List.replicate e.count e.dur ++ ahead s it' ∧ 0 < e.count ∧ it'.Ok s := by
  rcases moveNext_spec h ho with ⟨h1, h2⟩ | ⟨it', e, n, h1, h2, h3, h4, h5⟩
  · exact .inl ⟨h1, by unfold getElement; rw [h2]; rfl⟩
  · right
    refine ⟨{ dur := e.dur, count := e.count - it'.off }, { it' with off := e.count }, by unfold getElement; rw [h1]; rfl, ?_, ?_,
      n, e, h2, h3, Nat.le_refl _⟩
    · rw [← h5, ahead_eq h2 h3, ahead_eq (it := { it' with off := e.count }) h2 h3]
      dsimp only
      rw [Nat.sub_self, List.append_assoc]
      rfl
    · dsimp only; omega

/-- The durations of the next `k` segments. -/
def takeN (s : SL) : Nat → Iter → Res (List Nat)
  | 0, _ => .ok []
  | k + 1, it => do
    let (d, it') ← getOne s it
    let ds ← takeN s k it'
    .ok (d :: ds)

theorem takeN_spec {mono : Bool} {s : SL} (h : Inv mono s) : ∀ (k : Nat) {it : Iter}, it.Ok s → k ≤ (ahead s it).length →
    takeN s k it = .ok ((ahead s it).take k)
  | 0, _, _, _ => by rw [List.take_zero]; rfl
  | k + 1, it, ho, hk => by
    rcases getOne_spec h ho with ⟨h1, _⟩ | ⟨d, it', h1, h2, h3⟩
    · rw [h1] at hk; exact absurd hk (by simp)
    · unfold takeN
      rw [h1]
      simp only [Res.bind_ok]
      rw [h2] at hk ⊢
      rw [takeN_spec h k h3 (by simpa using hk)]
      rfl

/-! ## Search by index -/

theorem walk_split {l r : Tree} {i lo len : Nat} (h : (Tree.node l i r).walk = List.range' lo len) :
    ∃ a b, l.walk = List.range' lo a ∧ i = lo + a ∧ r.walk = List.range' (lo + a + 1) b ∧ len = a + 1 + b := by
  have hl : l.walk.length + 1 + r.walk.length = len := by
    have := congrArg List.length h
    simp [Tree.walk] at this
    omega
  refine ⟨l.walk.length, r.walk.length, ?_⟩
  have e : List.range' lo len = List.range' lo l.walk.length ++ (lo + l.walk.length) :: List.range' (lo + l.walk.length + 1) r.walk.length := by
    rw [show len = l.walk.length + (r.walk.length + 1) by omega, ← List.range'_append_1, List.range'_succ]
  rw [e] at h
  obtain ⟨h1, h2⟩ := List.append_inj h (by simp)
  injection h2 with h2 h3
  exact ⟨h1, h2, h3, hl.symm⟩

theorem walk_leaf {t : Tree} (h : t.walk = []) : t = .leaf := by
  cases t with
  | leaf => rfl
  | node l i r => simp [Tree.walk] at h

theorem findIdx_spec {ns : List Node} {x : Nat} (hs : ns.Pairwise (fun n m => n.last < m.key)) (hk : ∀ n ∈ ns, n.key ≤ n.last) :
    ∀ (t : Tree) (lo len : Nat), t ≠ .leaf → t.walk = List.range' lo len → lo + len ≤ ns.length →
    (∀ b, ns[lo + len]? = some b → x < b.key) → (∀ i a, i < lo → ns[i]? = some a → a.last < x) →
    (∃ i n, findIdx ns x t = .ok (.within i) ∧ ns[i]? = some n ∧ n.key ≤ x ∧ x ≤ n.last) ∨
    (∃ i n, findIdx ns x t = .ok (.after i) ∧ ns[i]? = some n ∧ x < n.key ∧ ∀ j a, j < i → ns[j]? = some a → a.last < x) ∨
    (findIdx ns x t = .err ∧ ∀ n ∈ ns, n.last < x)
  | .leaf, _, _, h, _, _, _, _ => absurd rfl h
  | .node l i r, lo, len, _, hw, hlen, hhi, hlo => by
    obtain ⟨a, b, e1, e2, e3, e4⟩ := walk_split hw
    have hi : i < ns.length := by omega
    have hlt : ∀ (j k : Nat) (u v : Node), j < k → ns[j]? = some u → ns[k]? = some v → u.last < v.key := by
      intro j k u v hjk hu hv
      obtain ⟨hj, rfl⟩ := List.getElem?_eq_some_iff.1 hu
      obtain ⟨hk', rfl⟩ := List.getElem?_eq_some_iff.1 hv
      exact List.pairwise_iff_getElem.1 hs j k hj hk' hjk
    have hn : ns[i]? = some ns[i] := List.getElem?_eq_getElem hi
    have hkn := hk ns[i] (List.getElem_mem hi)
    generalize ns[i] = n at hn hkn
    unfold findIdx
    rw [hn]
    dsimp only
    by_cases h1 : x < n.key
    · rw [if_pos h1]
      cases l with
      | leaf =>
        right; left
        have : a = 0 := by
          have := congrArg List.length e1
          simp [Tree.walk] at this
          omega
        exact ⟨i, n, rfl, hn, h1, fun j u hj hu => hlo j u (by omega) hu⟩
      | node l' i' r' =>
        exact findIdx_spec hs hk (.node l' i' r') lo a (by simp) e1 (by omega) (fun u hu => by
          rw [← e2, hn] at hu; injection hu with hu; rw [← hu]; exact h1) hlo
    · rw [if_neg h1]
      by_cases h2 : x > n.last
      · rw [if_pos h2]
        have hlo' : ∀ j u, j < i + 1 → ns[j]? = some u → u.last < x := by
          intro j u hj hu
          by_cases e : j = i
          · rw [e, hn] at hu; injection hu with hu; rw [← hu]; exact h2
          · have := hlt j i u n (by omega) hu hn; omega
        cases r with
        | leaf =>
          have hb : b = 0 := by
            have := congrArg List.length e3
            simp [Tree.walk] at this
            omega
          by_cases h3 : i + 1 = ns.length
          · right; right
            dsimp only
            rw [if_pos h3]
            refine ⟨rfl, fun u hu => ?_⟩
            obtain ⟨j, hj, e⟩ := List.getElem_of_mem hu
            exact hlo' j u (by omega) (by rw [← e]; exact List.getElem?_eq_getElem hj)
          · right; left
            dsimp only
            rw [if_neg h3]
            have hv : ns[i + 1]? = some ns[i + 1] := List.getElem?_eq_getElem (by omega)
            refine ⟨i + 1, ns[i + 1], rfl, hv, hhi _ (by rw [show lo + len = i + 1 by omega]; exact hv), hlo'⟩
        | node l' i' r' =>
          exact findIdx_spec hs hk (.node l' i' r') (lo + a + 1) b (by simp) e3 (by omega) (fun u hu => hhi u (by
            rw [show lo + len = lo + a + 1 + b by omega]; exact hu)) (fun j u hj hu => hlo' j u (by omega) hu)
      · rw [if_neg h2]
        exact .inl ⟨i, n, rfl, hn, by omega, by omega⟩

theorem findIdx_all {mono : Bool} {s : SL} (h : Inv mono s) {t : Tree} (ht : TreeOf s t) (hne : t ≠ .leaf) (x : Nat) :
    (∃ i n, findIdx s.nodes x t = .ok (.within i) ∧ s.nodes[i]? = some n ∧ n.key ≤ x ∧ x ≤ n.last) ∨
    (∃ i n, findIdx s.nodes x t = .ok (.after i) ∧ s.nodes[i]? = some n ∧ x < n.key ∧
      ∀ j a, j < i → s.nodes[j]? = some a → a.last < x) ∨
    (findIdx s.nodes x t = .err ∧ ∀ n ∈ s.nodes, n.last < x) := by
  refine findIdx_spec (Link.trans_idx h.ok h.link) (fun n hn => (h.ok n hn).key_le) t 0 s.nodes.length hne
    (by rw [← List.range_eq_range']; exact ht) (by omega) (fun b hb => ?_) (fun i a hi => absurd hi (Nat.not_lt_zero _))
  rw [List.getElem?_eq_none (by omega)] at hb
  exact nomatch hb

theorem sum_replicate (n d : Nat) : (List.replicate n d).sum = n * d := by
  induction n with
  | zero => simp
  | succ n ih => rw [List.replicate_succ, List.sum_cons, ih, Nat.succ_mul]; omega

theorem locate_spec : ∀ (es : List Elt) (k left : Nat) (time : Int), left < (durs es).length → -B ≤ time →
    time + ((durs es).sum : Nat) ≤ B →
    ∃ j off e, locate left time es k = .ok (k + j, off, time + (((durs es).take left).sum : Nat)) ∧ es[j]? = some e ∧
      off < e.count ∧ (durs es).drop left = List.replicate (e.count - off) e.dur ++ durs (es.drop (j + 1))
  | [], _, _, _, h, _, _ => by simp [durs] at h
  | e :: es, k, left, time, h, hlo, hhi => by
    rw [durs_cons] at h hhi ⊢
    rw [List.length_append, List.length_replicate] at h
    rw [List.sum_append, sum_replicate] at hhi
    unfold locate
    by_cases hc : left < e.count
    · rw [if_pos hc]
      have hle : left * e.dur ≤ e.count * e.dur := Nat.mul_le_mul_right _ (by omega)
      have e1 : i64 ((left : Int) * (e.dur : Int)) = .ok ((left * e.dur : Nat) : Int) := by
        rw [← Int.natCast_mul]
        exact i64_ok (by unfold B; omega) (by omega)
      have e2 : i64 (time + ((left * e.dur : Nat) : Int)) = .ok (time + ((left * e.dur : Nat) : Int)) :=
        i64_ok (by unfold B at *; omega) (by unfold B at *; omega)
      refine ⟨0, left, e, ?_, rfl, hc, ?_⟩
      · rw [e1, Res.bind_ok, e2, Res.bind_ok, List.take_append_of_le_length (by simp; omega), List.take_replicate, Nat.min_eq_left (by omega),
          sum_replicate]
        rfl
      · rw [List.drop_append_of_le_length (by simp; omega), List.drop_replicate]
        rfl
    · rw [if_neg hc]
      have e1 : i64 ((e.count : Int) * (e.dur : Int)) = .ok ((e.count * e.dur : Nat) : Int) := by
        rw [← Int.natCast_mul]
        exact i64_ok (by unfold B; omega) (by omega)
      have e2 : i64 (time + ((e.count * e.dur : Nat) : Int)) = .ok (time + ((e.count * e.dur : Nat) : Int)) :=
        i64_ok (by unfold B at *; omega) (by unfold B at *; omega)
      obtain ⟨j, off, e', h1, h2, h3, h4⟩ := locate_spec es (k + 1) (left - e.count) (time + ((e.count * e.dur : Nat) : Int))
        (by omega) (by omega) (by omega)
      have hl : (List.replicate e.count e.dur).length = e.count := List.length_replicate
      refine ⟨j + 1, off, e', ?_, h2, h3, ?_⟩
      · rw [e1, Res.bind_ok, e2, Res.bind_ok, h1, List.take_append, hl, List.take_of_length_le (l := List.replicate e.count e.dur) (by rw [hl]; omega), List.sum_append, sum_replicate,
          show k + 1 + j = k + (j + 1) by omega, Int.natCast_add, ← Int.add_assoc]
      · rw [List.drop_append, hl, List.drop_of_length_le (by simp; omega), h4]
        rfl

/-- Where in the list a node is. -/
theorem segs_split {s : SL} {i : Nat} {n : Node} (h : s.nodes[i]? = some n) :
    segs s = (s.nodes.take i).flatMap Node.segs ++ (n.segs ++ (s.nodes.drop (i + 1)).flatMap Node.segs) := by
  unfold segs
  rw [← List.flatMap_cons, ← List.flatMap_append, ← drop_of_get h, List.take_append_drop]

theorem flat_durs (l : List Node) : (l.flatMap Node.segs).map (·.dur) = l.flatMap (fun m => durs m.elts) := by
  induction l with
  | nil => rfl
  | cons n l ih =>
    rw [List.flatMap_cons, List.flatMap_cons, List.map_append, ih]
    congr 1
    exact seq_durs ..

theorem tree_leaf {s : SL} {t : Tree} (ht : TreeOf s t) : t = .leaf ↔ s.nodes = [] := by
  constructor
  · intro e; subst e
    have := congrArg List.length ht
    simp [Tree.walk] at this
    exact List.eq_nil_of_length_eq_zero this.symm
  · intro e
    unfold TreeOf at ht
    rw [e] at ht
    exact walk_leaf ht

/-- The split of the segments of a node at one of them. -/
theorem node_at {n : Node} {k : Nat} (hk : k < (durs n.elts).length) : ∃ d, (durs n.elts).drop k = d :: (durs n.elts).drop (k + 1) ∧
    n.segs = seq n.key n.time ((durs n.elts).take k) ++
      ⟨n.key + k, n.time + (((durs n.elts).take k).sum : Nat), d⟩ :: seq (n.key + k + 1) (n.time + (((durs n.elts).take k).sum : Nat) + (d : Nat)) ((durs n.elts).drop (k + 1)) := by
  have h := drop_of_get (List.getElem?_eq_getElem hk)
  refine ⟨_, h, ?_⟩
  unfold Node.segs
  conv => lhs; rw [← List.take_append_drop k (durs n.elts), seq_append, h]
  rw [seq, List.length_take, Nat.min_eq_left (by omega)]

/-- Looking up an index: the segment with it is found, with its time, and the iterator is at it, in the node that holds it. -/
theorem iterInit_at {mono : Bool} {s : SL} (h : Inv mono s) {t : Tree} (ht : TreeOf s t) {a c : List Seg} {g : Seg}
    (hg : segs s = a ++ g :: c) (strict : Bool) :
    ∃ it, iterInit s t g.idx strict = .ok (it, g.time) ∧ it.Ok s ∧ ahead s it = (g :: c).map (·.dur) ∧
      ∃ n e, s.nodes[it.node]? = some n ∧ n.elts[it.elt]? = some e ∧ it.off < e.count ∧ n.key ≤ g.idx ∧ g.idx ≤ n.last ∧
        (durs n.elts).drop (g.idx - n.key) = List.replicate (e.count - it.off) e.dur ++ durs (n.elts.drop (it.elt + 1)) ∧
        g.time = n.time + (((durs n.elts).take (g.idx - n.key)).sum : Nat) := by
  have hne : s.nodes ≠ [] := by
    intro e; unfold segs at hg; rw [e] at hg; simp at hg
  have htl : t ≠ .leaf := fun e => hne ((tree_leaf ht).1 e)
  have hgm : g ∈ segs s := by rw [hg]; simp
  obtain ⟨n0, hn0, hgn⟩ := List.mem_flatMap.1 hgm
  have h0 := seq_mem _ _ _ g hgn
  have hl0 := (h.ok n0 hn0).last
  have hsort := Link.trans_idx h.ok h.link
  have hlt : ∀ (j k : Nat) (u v : Node), j < k → s.nodes[j]? = some u → s.nodes[k]? = some v → u.last < v.key := by
    intro j k u v hjk hu hv
    obtain ⟨hj, rfl⟩ := List.getElem?_eq_some_iff.1 hu
    obtain ⟨hk', rfl⟩ := List.getElem?_eq_some_iff.1 hv
    exact List.pairwise_iff_getElem.1 hsort j k hj hk' hjk
  obtain ⟨i0, hi0, e0⟩ := List.getElem_of_mem hn0
  have hi0' : s.nodes[i0]? = some n0 := by rw [← e0]; exact List.getElem?_eq_getElem hi0
  rcases findIdx_all h ht htl g.idx with ⟨i, n, f1, f2, f3, f4⟩ | ⟨i, n, f1, f2, f3, f4⟩ | ⟨_, f2⟩
  · -- within node i
    have hno := h.ok n (List.mem_of_getElem? f2)
    have hL := hno.last
    have hk : g.idx - n.key < (durs n.elts).length := by omega
    obtain ⟨j, off, e, l1, l2, l3, l4⟩ := locate_spec n.elts 0 (g.idx - n.key) n.time hk hno.lo hno.hi
    obtain ⟨d, d1, d2⟩ := node_at hk
    have hs := segs_split f2
    rw [d2] at hs
    -- the segment at that place is `g`
    have huniq : g = ⟨n.key + (g.idx - n.key), n.time + (((durs n.elts).take (g.idx - n.key)).sum : Nat), d⟩ ∧
        c = seq (n.key + (g.idx - n.key) + 1) (n.time + (((durs n.elts).take (g.idx - n.key)).sum : Nat) + (d : Nat)) ((durs n.elts).drop (g.idx - n.key + 1)) ++
          (s.nodes.drop (i + 1)).flatMap Node.segs := by
      have hsrt := segs_sorted h
      have e1 := hg.symm.trans hs
      rw [List.append_assoc, List.cons_append, ← List.append_assoc] at e1
      generalize hA : (s.nodes.take i).flatMap Node.segs ++ seq n.key n.time ((durs n.elts).take (g.idx - n.key)) = A at e1
      generalize hC : seq (n.key + (g.idx - n.key) + 1) (n.time + (((durs n.elts).take (g.idx - n.key)).sum : Nat) + (d : Nat)) ((durs n.elts).drop (g.idx - n.key + 1)) ++ (s.nodes.drop (i + 1)).flatMap Node.segs = C at e1 ⊢
      generalize hg' : (⟨n.key + (g.idx - n.key), n.time + (((durs n.elts).take (g.idx - n.key)).sum : Nat), d⟩ : Seg) = g' at e1 ⊢
      have hidx : g'.idx = g.idx := by rw [← hg']; dsimp only; omega
      have hlen : a.length = A.length := by
        rw [hg] at hsrt
        have hs2 := hsrt
        rw [e1] at hs2
        rcases Nat.lt_trichotomy a.length A.length with hl | hl | hl
        · exfalso
          -- g is in A, before g'
          have : g ∈ A := by
            have h1 : (a ++ g :: c)[a.length]? = some g := by simp
            rw [e1, List.getElem?_append_left hl] at h1
            exact List.mem_of_getElem? h1
          have := (List.pairwise_append.1 hs2).2.2 g this g' (by simp)
          omega
        · exact hl
        · exfalso
          have : g' ∈ a := by
            have h1 : (A ++ g' :: C)[A.length]? = some g' := by simp
            rw [← e1, List.getElem?_append_left hl] at h1
            exact List.mem_of_getElem? h1
          have := (List.pairwise_append.1 hsrt).2.2 g' this g (by simp)
          omega
      obtain ⟨_, e3⟩ := List.append_inj e1 hlen
      injection e3 with e3 e4
      exact ⟨e3, e4⟩
    obtain ⟨u1, u2⟩ := huniq
    refine ⟨⟨i, j, off⟩, ?_, ⟨n, e, f2, l2, Nat.le_of_lt l3⟩, ?_, n, e, f2, l2, l3, f3, f4, l4, congrArg Seg.time u1⟩
    · unfold iterInit
      cases t with
      | leaf => exact absurd rfl htl
      | node tl ti tr =>
        simp only [f1, Res.bind_ok, f2, l1, Nat.zero_add]
        rw [show g.time = n.time + (((durs n.elts).take (g.idx - n.key)).sum : Nat) from congrArg Seg.time u1]
    · rw [ahead_eq (it := ⟨i, j, off⟩) f2 l2, ← l4, d1, List.map_cons, u2, List.map_append, flat_durs, seq_durs,
        show g.dur = d from congrArg Seg.dur u1]
      rfl
  · exfalso
    have hk0 := h0.1
    rcases Nat.lt_trichotomy i0 i with hlt' | heq | hgt
    · have := f4 i0 n0 hlt' hi0'; omega
    · rw [heq, f2] at hi0'; injection hi0' with e; rw [← e] at hk0; omega
    · have := hlt i i0 n n0 hgt f2 hi0'
      have := (h.ok n (List.mem_of_getElem? f2)).key_le
      omega
  · exfalso
    have := f2 n0 hn0
    omega

theorem iterInit_found {mono : Bool} {s : SL} (h : Inv mono s) {t : Tree} (ht : TreeOf s t) {a c : List Seg} {g : Seg}
    (hg : segs s = a ++ g :: c) (strict : Bool) :
    ∃ it, iterInit s t g.idx strict = .ok (it, g.time) ∧ it.Ok s ∧ ahead s it = (g :: c).map (·.dur) := by
  obtain ⟨it, h1, h2, h3, _⟩ := iterInit_at h ht hg strict
  exact ⟨it, h1, h2, h3⟩

/-- An index that no segment has: an error when strict. -/
theorem iterInit_missing {mono : Bool} {s : SL} (h : Inv mono s) {t : Tree} (ht : TreeOf s t) {x : Nat}
    (hx : ∀ g ∈ segs s, g.idx ≠ x) : iterInit s t x true = .err := by
  cases t with
  | leaf => rfl
  | node l i r =>
    have htl : Tree.node l i r ≠ .leaf := by simp
    unfold iterInit
    rcases findIdx_all h ht htl x with ⟨i, n, f1, f2, f3, f4⟩ | ⟨i, n, f1, f2, f3, f4⟩ | ⟨f1, f2⟩
    · exfalso
      have hno := h.ok n (List.mem_of_getElem? f2)
      have hL := hno.last
      obtain ⟨d, _, d2⟩ := node_at (n := n) (k := x - n.key) (by omega)
      refine hx ⟨n.key + (x - n.key), n.time + (((durs n.elts).take (x - n.key)).sum : Nat), d⟩ ?_ (by dsimp only; omega)
      rw [segs_split f2, d2]; simp
    · simp only [f1, Res.bind_ok]; rfl
    · simp only [f1, Res.bind_err]

/-- Without `strict` the next segment is found. -/
theorem iterInit_next {mono : Bool} {s : SL} (h : Inv mono s) {t : Tree} (ht : TreeOf s t) {x : Nat}
    (hx : ∀ g ∈ segs s, g.idx ≠ x) :
    (iterInit s t x false = .err ∧ ∀ g ∈ segs s, g.idx < x) ∨
    ∃ a g c i n, segs s = a ++ g :: c ∧ (∀ k ∈ a, k.idx < x) ∧ x < g.idx ∧ s.nodes[i]? = some n ∧ (n.key = g.idx ∧ n.time = g.time) ∧
      iterInit s t x false = .ok (⟨i, 0, 0⟩, g.time) ∧ (⟨i, 0, 0⟩ : Iter).Ok s ∧ ahead s ⟨i, 0, 0⟩ = (g :: c).map (·.dur) := by
  cases t with
  | leaf =>
    left
    have := (tree_leaf ht).1 rfl
    refine ⟨rfl, fun g hg => ?_⟩
    unfold segs at hg; rw [this] at hg; exact absurd hg List.not_mem_nil
  | node l i r =>
    have htl : Tree.node l i r ≠ .leaf := by simp
    unfold iterInit
    rcases findIdx_all h ht htl x with ⟨i, n, f1, f2, f3, f4⟩ | ⟨i, n, f1, f2, f3, f4⟩ | ⟨f1, f2⟩
    · exfalso
      have hno := h.ok n (List.mem_of_getElem? f2)
      have hL := hno.last
      obtain ⟨d, _, d2⟩ := node_at (n := n) (k := x - n.key) (by omega)
      refine hx ⟨n.key + (x - n.key), n.time + (((durs n.elts).take (x - n.key)).sum : Nat), d⟩ ?_ (by dsimp only; omega)
      rw [segs_split f2, d2]; simp
    · right
      have hno := h.ok n (List.mem_of_getElem? f2)
      have hp := durs_pos hno.ne hno.pos
      obtain ⟨d, d1, d2⟩ := node_at (n := n) (k := 0) hp
      have hs := segs_split f2
      rw [d2] at hs
      simp only [List.take_zero, seq, List.nil_append, List.sum_nil, List.drop_zero, Nat.add_zero, List.cons_append] at hs d1
      obtain ⟨e, es, ee⟩ : ∃ e es, n.elts = e :: es := by
        cases hh : n.elts with
        | nil => exact absurd hh hno.ne
        | cons e es => exact ⟨e, es, rfl⟩
      have he0 : n.elts[0]? = some e := by rw [ee]; rfl
      refine ⟨_, _, _, i, n, hs, fun k hk => ?_, f3, f2, ⟨rfl, by simp⟩, ?_, ⟨n, e, f2, he0, Nat.zero_le _⟩, ?_⟩
      · obtain ⟨m, hm, hkm⟩ := List.mem_flatMap.1 hk
        obtain ⟨j, hj, em⟩ := List.getElem_of_mem hm
        rw [List.length_take] at hj
        have hj' : s.nodes[j]? = some m := by
          rw [← em, List.getElem_take]; exact List.getElem?_eq_getElem (by omega)
        have := f4 j m (by omega) hj'
        have h5 := seq_mem _ _ _ k hkm
        have := (h.ok m (List.mem_of_getElem? hj')).last
        omega
      · simp only [f1, Res.bind_ok, f2]
        simp
      · rw [ahead_eq (it := ⟨i, 0, 0⟩) f2 he0, List.map_cons, List.map_append, flat_durs, seq_durs]
        dsimp only
        rw [Nat.sub_zero, ← durs_cons, ← drop_of_get he0, List.drop_zero, d1]
        rfl
    · left
      refine ⟨by simp only [f1, Res.bind_err], fun g hg => ?_⟩
      obtain ⟨m, hm, hkm⟩ := List.mem_flatMap.1 hg
      have h5 := seq_mem _ _ _ g hkm
      have := (h.ok m hm).last
      have := f2 m hm
      omega

end Verif.SegmentList
