import Verif.SegmentListTime

/-!
# Segment list: periods
-/

namespace Verif.SegmentList

/-- A segment that follows another one without a gap. -/
def Follows (a b : Seg) : Prop := b.idx = a.idx + 1 ∧ b.time = a.time + (a.dur : Nat)

instance (a b : Seg) : Decidable (Follows a b) := inferInstanceAs (Decidable (_ ∧ _))

/-- No gap in the list. -/
def NoGap : List Seg → Prop
  | a :: b :: l => Follows a b ∧ NoGap (b :: l)
  | _ => True

instance : (l : List Seg) → Decidable (NoGap l)
  | [] => inferInstanceAs (Decidable True)
  | [_] => inferInstanceAs (Decidable True)
  | a :: b :: l => by
    have : Decidable (NoGap (b :: l)) := instDecidableNoGap (b :: l)
    exact inferInstanceAs (Decidable (_ ∧ _))

/-- The segments with the number of their period. -/
def tagged (l : List Node) : List (Seg × Nat) := l.flatMap fun n => n.segs.map fun g => (g, n.period)

theorem tagged_fst (l : List Node) : (tagged l).map Prod.fst = l.flatMap Node.segs := by
  unfold tagged
  induction l with
  | nil => rfl
  | cons n l ih => rw [List.flatMap_cons, List.flatMap_cons, List.map_append, ih, List.map_map]; congr 1; exact List.map_id _

def Tag (x y : Seg × Nat) : Prop := y.2 = if Follows x.1 y.1 then x.2 else x.2 + 1

theorem seq_tag (p : Nat) : ∀ (ds : List Nat) (i : Nat) (t : Int), Adj Tag ((seq i t ds).map fun g => (g, p))
  | [], _, _ => adj_nil _
  | [_], _, _ => adj_single _ _
  | d :: d' :: ds, i, t => by
    refine adj_cons.2 ⟨?_, seq_tag p (d' :: ds) _ _⟩
    unfold Tag
    rw [if_pos ⟨rfl, rfl⟩]

theorem adj_join {α : Type} {R : α → α → Prop} {a b : List α} (ha : Adj R a) (hb : Adj R b)
    (hj : ∀ x y, a.getLast? = some x → b.head? = some y → R x y) : Adj R (a ++ b) := by
  induction a with
  | nil => exact hb
  | cons x a ih =>
    cases a with
    | nil =>
      cases b with
      | nil => exact adj_single _ _
      | cons y b => exact adj_cons.2 ⟨hj x y rfl rfl, hb⟩
    | cons x' a =>
      obtain ⟨h1, h2⟩ := adj_cons.1 ha
      refine adj_cons.2 ⟨h1, ih h2 (fun u v hu hv => hj u v ?_ hv)⟩
      rw [List.getLast?_cons_cons]; exact hu

theorem node_first {n : Node} (h : NodeOk n) : ∃ d ds, n.segs = ⟨n.key, n.time, d⟩ :: ds := by
  unfold Node.segs
  have := durs_pos h.ne h.pos
  cases hd : durs n.elts with
  | nil => rw [hd] at this; exact absurd this (by simp)
  | cons d ds => exact ⟨d, _, rfl⟩

theorem tagged_adj {mono : Bool} : ∀ (l : List Node), (∀ n ∈ l, NodeOk n) → Adj (Link mono) l → Adj Tag (tagged l)
  | [], _, _ => adj_nil _
  | n :: l, hk, h => by
    have hn := hk n (List.mem_cons_self ..)
    have ih := tagged_adj l (fun m hm => hk m (List.mem_cons_of_mem _ hm)) (adj_tail h)
    unfold tagged at ih ⊢
    rw [List.flatMap_cons]
    refine adj_join (seq_tag _ _ _ _) ih (fun x y hx hy => ?_)
    cases l with
    | nil => exact nomatch hy
    | cons m l =>
      have hm := hk m (by simp)
      obtain ⟨d, ds, e⟩ := node_first hm
      rw [List.flatMap_cons, e] at hy
      injection hy with hy
      obtain ⟨g, g1, g2, g3⟩ := node_last hn
      rw [List.getLast?_map, g1] at hx
      injection hx with hx
      have hl := (adj_cons.1 h).1.period
      have hiff : Follows g ⟨m.key, m.time, d⟩ ↔ Touch n m := by unfold Follows Touch; rw [g2, g3]
      rw [← hy, ← hx]
      unfold Tag
      dsimp only
      rw [hl]
      by_cases ht : Touch n m
      · rw [if_pos ht, if_pos (hiff.2 ht)]
      · rw [if_neg ht, if_neg (fun hf => ht (hiff.1 hf))]

theorem tag_chain : ∀ (l : List (Seg × Nat)) (x y : Seg × Nat), Adj Tag (x :: l) → (x :: l).getLast? = some y →
    x.2 ≤ y.2 ∧ (y.2 = x.2 ↔ NoGap ((x :: l).map Prod.fst))
  | [], x, y, _, h => by rw [List.getLast?_singleton] at h; injection h with h; rw [h]; simp [NoGap]
  | z :: l, x, y, ha, h => by
    obtain ⟨h1, h2⟩ := adj_cons.1 ha
    rw [List.getLast?_cons_cons] at h
    obtain ⟨i1, i2⟩ := tag_chain l z y h2 h
    unfold Tag at h1
    simp only [List.map_cons] at i2 ⊢
    rw [NoGap]
    by_cases hf : Follows x.1 z.1
    · rw [if_pos hf] at h1
      refine ⟨by omega, ?_⟩
      rw [← h1, i2]
      exact ⟨fun h => ⟨hf, h⟩, fun h => h.2⟩
    · rw [if_neg hf] at h1
      exact ⟨by omega, fun h => by omega, fun h => absurd h.1 hf⟩

theorem mem_tagged {l : List Node} {n : Node} {g : Seg} (hn : n ∈ l) (hg : g ∈ n.segs) : (g, n.period) ∈ tagged l :=
  List.mem_flatMap.2 ⟨n, hn, List.mem_map.2 ⟨g, hg, rfl⟩⟩

/-- Two segments in nodes: the nodes are of the same period exactly when there is no gap between the segments. -/
theorem same_period {mono : Bool} {s : SL} (h : Inv mono s) {A M C : List Seg} {g k : Seg} {n m : Node} (hs : segs s = A ++ g :: M ++ C)
    (hl : (g :: M).getLast? = some k) (hn : n ∈ s.nodes) (hg : g ∈ n.segs) (hm : m ∈ s.nodes) (hk : k ∈ m.segs) :
    (n.period = m.period ↔ NoGap (g :: M)) := by
  have hadj := tagged_adj s.nodes h.ok h.link
  have hfst := tagged_fst s.nodes
  have hsort := segs_sorted h
  -- a tag is unique
  have huniq : ∀ x ∈ tagged s.nodes, ∀ y ∈ tagged s.nodes, x.1.idx = y.1.idx → x = y := by
    have hp : (tagged s.nodes).Pairwise (fun x y => x.1.idx < y.1.idx) := by
      have : ((tagged s.nodes).map Prod.fst).Pairwise (fun g k => g.idx < k.idx) := by rw [hfst]; exact hsort
      exact (List.pairwise_map (R := fun g k : Seg => g.idx < k.idx)).1 this
    intro x hx y hy e
    obtain ⟨a, b, ea⟩ := List.append_of_mem hx
    rw [ea] at hp hy
    obtain ⟨_, p2, p3⟩ := List.pairwise_append.1 hp
    rcases List.mem_append.1 hy with hy | hy
    · have := p3 y hy x (by simp); omega
    · rcases List.mem_cons.1 hy with hy | hy
      · exact hy.symm
      · have := (List.pairwise_cons.1 p2).1 y hy; omega
  -- the part of the tagged list
  have e1 : (tagged s.nodes).map Prod.fst = A ++ ((g :: M) ++ C) := by rw [hfst]; exact hs.trans (List.append_assoc ..)
  obtain ⟨tA, tR, e2, _, e4⟩ := List.map_eq_append_iff.1 e1
  obtain ⟨tM, tC, e5, e6, _⟩ := List.map_eq_append_iff.1 e4
  cases tM with
  | nil => exact nomatch e6
  | cons x tM =>
    rw [List.map_cons] at e6
    injection e6 with e7 e8
    rw [e2, e5] at hadj
    have hadj' := (adj_append (adj_append hadj).2).1
    cases hy : (x :: tM).getLast? with
    | none => exact absurd (List.getLast?_eq_none_iff.1 hy) (by simp)
    | some y =>
      obtain ⟨_, t2⟩ := tag_chain tM x y hadj' hy
      rw [List.map_cons, e7, e8] at t2
      have hyk : y.1 = k := by
        have : ((x :: tM).map Prod.fst).getLast? = some y.1 := by rw [List.getLast?_map, hy]; rfl
        rw [List.map_cons, e7, e8, hl] at this
        injection this with this; exact this.symm
      have hx2 : x = (g, n.period) := huniq x (by rw [e2, e5]; simp) _ (mem_tagged hn hg) (by rw [e7])
      have hy2 : y = (k, m.period) := huniq y (by
        rw [e2, e5]
        exact List.mem_append_right _ (List.mem_append_left _ (List.mem_of_getLast? hy))) _ (mem_tagged hm hk) (by rw [hyk])
      rw [hx2, hy2] at t2
      exact ⟨fun h => t2.1 h.symm, fun h => (t2.2 h).symm⟩

theorem getOne_node {mono : Bool} {s : SL} (_ : Inv mono s) {it : Iter} {n : Node} {e : Elt} (hn : s.nodes[it.node]? = some n)
    (he : n.elts[it.elt]? = some e) (ho : it.off < e.count) : getOne s it = .ok (e.dur, { it with off := it.off + 1 }) := by
  unfold getOne moveNext
  simp only [hn, he, if_pos ho]
  rfl

/-- The end of the period part from one segment to another. -/
theorem periodEnd_spec {mono : Bool} {s : SL} (h : Inv mono s) {t : Tree} (ht : TreeOf s t) {A M C : List Seg} {g k : Seg} {it : Iter} {n : Node}
    (hs : segs s = A ++ g :: M ++ C) (hl : (g :: M).getLast? = some k) (hn : s.nodes[it.node]? = some n) (hg : g ∈ n.segs) :
    periodEnd s t it k.idx = if NoGap (g :: M) then .ok (k.time + (k.dur : Nat)) else .err := by
  obtain ⟨M', eM⟩ := getLast_concat hl
  have hs' : segs s = (A ++ M') ++ k :: C := by rw [hs, eM]; simp
  obtain ⟨it', h1, h2, h3, m, e, h4, h5, h6, h7, h8, h9, h10⟩ := iterInit_at h ht hs' true
  have hmo := h.ok m (List.mem_of_getElem? h4)
  have hml := hmo.last
  have hone := getOne_node h h4 h5 h6
  have hkd : k.dur = e.dur := by
    rw [ahead_eq h4 h5, show e.count - it'.off = (e.count - it'.off - 1) + 1 by omega, List.replicate_succ] at h3
    simp only [List.cons_append, List.map_cons] at h3
    injection h3 with h3 _
    exact h3.symm
  have hkm : k ∈ m.segs := by
    obtain ⟨d, d1, d2⟩ := node_at (n := m) (k := k.idx - m.key) (by omega)
    have hdd : d = e.dur := by
      rw [d1, show e.count - it'.off = (e.count - it'.off - 1) + 1 by omega, List.replicate_succ] at h9
      injection h9
    have hke : k = ⟨m.key + (k.idx - m.key), m.time + (((durs m.elts).take (k.idx - m.key)).sum : Nat), d⟩ := by
      rw [← h10, hdd, ← hkd, show m.key + (k.idx - m.key) = k.idx by omega]
    have hin : (⟨m.key + (k.idx - m.key), m.time + (((durs m.elts).take (k.idx - m.key)).sum : Nat), d⟩ : Seg) ∈ m.segs := by
      rw [d2]; simp
    rw [← hke] at hin
    exact hin
  have hsame := same_period h hs hl (List.mem_of_getElem? hn) hg (List.mem_of_getElem? h4) hkm
  have hmt := seq_mem _ _ _ k hkm
  have hlo := hmo.lo
  have hhi := hmo.hi
  have hfin : m.fin = m.time + ((durs m.elts).sum : Nat) := rfl
  unfold periodEnd
  rw [h1, Res.bind_ok]
  dsimp only
  rw [hone, Res.bind_ok]
  dsimp only
  rw [hn, h4]
  dsimp only
  by_cases hc : NoGap (g :: M)
  · rw [if_pos hc, if_neg (fun hne => hne (hsame.2 hc)), ← hkd]
    exact i64_ok (by unfold B at *; omega) (by unfold B at *; omega)
  · rw [if_neg hc, if_pos (fun he => hc (hsame.1 he))]

end Verif.SegmentList
