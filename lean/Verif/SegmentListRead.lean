import Verif.SegmentListPeriod

/-!
# Segment list: what reading a period does
-/

namespace Verif.SegmentList

theorem sub32_ok {a b : Nat} (h : b ≤ a) : sub32 a b = a - b := if_pos h

theorem i64_eq {x y : Int} (h : i64 x = .ok y) : y = x := by
  unfold i64 at h
  by_cases hd : -2 ^ 63 ≤ x ∧ x < 2 ^ 63
  · rw [if_pos hd] at h; injection h with h; exact h.symm
  · rw [if_neg hd] at h; exact nomatch h

theorem i64_in {x : Int} (h1 : -2 ^ 63 ≤ x) (h2 : x < 2 ^ 63) : i64 x = .ok x := if_pos ⟨h1, h2⟩

/-- Elements that were accepted. -/
theorem takeElts_ok {M : Nat} (hM : M < 2 ^ 32) : ∀ (es : List Elt) (j : Nat) (t : Int) (j' : Nat) (t' : Int), j ≤ M →
    takeElts M j t es = .ok (j', t') →
    j' = j + (durs es).length ∧ j' ≤ M ∧ t' = t + ((durs es).sum : Nat) ∧ ∀ e ∈ es, 0 < e.count
  | [], j, t, j', t', hj, h => by
    unfold takeElts at h
    injection h with h
    injection h with h1 h2
    rw [durs_nil]
    exact ⟨by simp [← h1], by omega, by simp [← h2], fun _ h => absurd h List.not_mem_nil⟩
  | e :: es, j, t, j', t', hj, h => by
    unfold takeElts at h
    by_cases h1 : e.count ≤ 0
    · rw [if_pos h1] at h; exact nomatch h
    rw [if_neg h1] at h
    by_cases h2 : e.count > sub32 M j
    · rw [if_pos h2] at h; exact nomatch h
    rw [if_neg h2] at h
    rw [sub32_ok hj] at h2
    rw [add32_ok (by omega)] at h
    cases hp : i64 ((e.dur : Int) * (e.count : Int)) with
    | err => rw [hp] at h; exact nomatch h
    | ub => rw [hp] at h; exact nomatch h
    | ok p =>
      rw [hp, Res.bind_ok] at h
      have ep : p = ((e.count * e.dur : Nat) : Int) := by
        rw [i64_eq hp, Int.natCast_mul, Int.mul_comm]
      cases ht : i64 (t + p) with
      | err => rw [ht] at h; exact nomatch h
      | ub => rw [ht] at h; exact nomatch h
      | ok q =>
        rw [ht, Res.bind_ok] at h
        have eq := i64_eq ht
        obtain ⟨g1, g2, g3, g4⟩ := takeElts_ok hM es (j + e.count) q j' t' (by omega) h
        rw [durs_cons, List.length_append, List.length_replicate, List.sum_append, sum_replicate]
        refine ⟨by omega, g2, by rw [g3, eq, ep]; omega, fun x hx => ?_⟩
        rcases List.mem_cons.1 hx with hx | hx
        · rw [hx]; omega
        · exact g4 x hx

/-- The sums of the elements are in range. -/
def Small (t : Int) (es : List Elt) : Prop := -2 ^ 63 ≤ t ∧ ((durs es).sum : Nat) < 2 ^ 63 ∧ t + ((durs es).sum : Nat) < 2 ^ 63

theorem Small.split {t : Int} {a b : List Elt} (h : Small t (a ++ b)) : Small t a ∧ Small (t + ((durs a).sum : Nat)) b := by
  unfold Small at *
  rw [durs_append, List.sum_append] at h
  omega

/-- When the sums are in range nothing is undefined, and elements that fit are accepted. -/
theorem takeElts_def {M : Nat} (hM : M < 2 ^ 32) : ∀ (es : List Elt) (j : Nat) (t : Int), j ≤ M → Small t es →
    takeElts M j t es ≠ .ub ∧ ((∀ e ∈ es, 0 < e.count) → j + (durs es).length ≤ M → takeElts M j t es ≠ .err)
  | [], j, t, _, _ => ⟨(fun h => nomatch h), (fun _ _ h => nomatch h)⟩
  | e :: es, j, t, hj, hs => by
    unfold takeElts
    obtain ⟨s1, s2, s3⟩ := hs
    rw [durs_cons, List.sum_append, sum_replicate] at s2 s3
    rw [durs_cons, List.length_append, List.length_replicate]
    by_cases h1 : e.count ≤ 0
    · rw [if_pos h1]
      refine ⟨by simp, fun h => ?_⟩
      have := h e (List.mem_cons_self ..)
      omega
    rw [if_neg h1, sub32_ok hj]
    by_cases h2 : e.count > M - j
    · rw [if_pos h2]; exact ⟨by simp, fun _ _ => by omega⟩
    rw [if_neg h2, add32_ok (by omega), ← Int.natCast_mul, Nat.mul_comm e.dur e.count]
    generalize e.count * e.dur = p at s2 s3
    rw [i64_in (by omega) (by omega), Res.bind_ok, i64_in (by omega) (by omega), Res.bind_ok]
    obtain ⟨g1, g2⟩ := takeElts_def hM es (j + e.count) (t + (p : Nat)) (by omega) ⟨by omega, by omega, by omega⟩
    exact ⟨g1, fun h1 h2 => g2 (fun x hx => h1 x (List.mem_cons_of_mem _ hx)) (by omega)⟩

/-! ## New nodes -/

structure NodeW (n : Node) : Prop where
  ne : n.elts ≠ []
  len : n.elts.length ≤ maxElts
  pos : ∀ e ∈ n.elts, 0 < e.count
  last : n.last + 1 = n.key + (durs n.elts).length
  bound : n.last + 1 < 2 ^ 32

/-- Nodes of a period, one after the other. -/
inductive Chain (p : Nat) : Nat → Int → List Node → Nat → Int → Prop where
  | nil (j : Nat) (t : Int) : Chain p j t [] j t
  | cons {n : Node} {ns : List Node} {j' : Nat} {t' : Int} : NodeW n → n.period = p → Chain p (n.last + 1) n.fin ns j' t' →
      Chain p n.key n.time (n :: ns) j' t'

theorem newNodes_ok {M p : Nat} (hM : M < 2 ^ 32) : ∀ (f alloc j : Nat) (t : Int) (es : List Elt) (ns : List Node) (j' : Nat) (t' : Int), j ≤ M →
    newNodes M p f alloc j t es = .ok (ns, j', t') →
    j' = j + (durs es).length ∧ j' ≤ M ∧ t' = t + ((durs es).sum : Nat) ∧ (∀ e ∈ es, 0 < e.count) ∧ Chain p j t ns j' t' ∧
      ns.flatMap (·.elts) = es
  | f, alloc, j, t, [], ns, j', t', hj, h => by
    unfold newNodes at h
    injection h with h
    injection h with h1 h2
    injection h2 with h2 h3
    subst h1 h2 h3
    rw [durs_nil]
    exact ⟨by simp, hj, by simp, fun _ h => absurd h List.not_mem_nil, .nil _ _, rfl⟩
  | 0, alloc, j, t, e :: es, ns, j', t', hj, h => by unfold newNodes at h; exact nomatch h
  | f + 1, alloc, j, t, e :: es, ns, j', t', hj, h => by
    unfold newNodes at h
    by_cases ha : alloc ≤ 0
    · rw [if_pos ha] at h; exact nomatch h
    rw [if_neg ha] at h
    generalize hes : e :: es = l at h ⊢
    cases h1 : takeElts M j t (l.take maxElts) with
    | err => rw [h1] at h; exact nomatch h
    | ub => rw [h1] at h; exact nomatch h
    | ok r =>
      obtain ⟨j1, t1⟩ := r
      rw [h1, Res.bind_ok] at h
      dsimp only at h
      cases h2 : newNodes M p f (alloc - 1) j1 t1 (l.drop maxElts) with
      | err => rw [h2] at h; exact nomatch h
      | ub => rw [h2] at h; exact nomatch h
      | ok r =>
        obtain ⟨ns1, j2, t2⟩ := r
        rw [h2, Res.bind_ok] at h
        dsimp only at h
        injection h with h
        injection h with e1 h
        injection h with e2 e3
        subst e1 e2 e3
        obtain ⟨a1, a2, a3, a4⟩ := takeElts_ok hM _ j t j1 t1 hj h1
        obtain ⟨b1, b2, b3, b4, b5, b6⟩ := newNodes_ok hM f (alloc - 1) j1 t1 _ ns1 j2 t2 a2 h2
        have hd : durs l = durs (l.take maxElts) ++ durs (l.drop maxElts) := by rw [← durs_append, List.take_append_drop]
        have hne : l.take maxElts ≠ [] := by rw [← hes]; unfold maxElts; simp
        have hp := durs_pos hne a4
        have hs : sub32 j1 1 = j1 - 1 := sub32_ok (by omega)
        rw [hd, List.length_append, List.sum_append]
        refine ⟨by omega, b2, by omega, fun x hx => ?_, ?_, ?_⟩
        · rw [← List.take_append_drop maxElts l] at hx
          rcases List.mem_append.1 hx with hx | hx
          · exact a4 x hx
          · exact b4 x hx
        · have hc := Chain.cons (p := p) (n := { key := j, time := t, last := sub32 j1 1, period := p, elts := l.take maxElts })
            (ns := ns1) (j' := j2) (t' := t2) ⟨hne, by simp; omega, a4, by dsimp only; rw [hs]; omega, by dsimp only; rw [hs]; omega⟩ rfl (by
              have e1 : sub32 j1 1 + 1 = j1 := by omega
              show Chain p (sub32 j1 1 + 1) (t + ((durs (l.take maxElts)).sum : Nat)) ns1 j2 t2
              rw [e1, ← a3]; exact b5)
          exact hc
        · rw [List.flatMap_cons, b6, List.take_append_drop]

theorem newNodes_def {M p : Nat} (hM : M < 2 ^ 32) : ∀ (f alloc j : Nat) (t : Int) (es : List Elt), j ≤ M → Small t es → es.length ≤ f →
    newNodes M p f alloc j t es ≠ .ub ∧
    ((∀ e ∈ es, 0 < e.count) → j + (durs es).length ≤ M → es.length ≤ alloc → newNodes M p f alloc j t es ≠ .err)
  | f, alloc, j, t, [], _, _, _ => by unfold newNodes; exact ⟨by simp, by simp⟩
  | 0, _, _, _, _ :: _, _, _, h => absurd h (by simp)
  | f + 1, alloc, j, t, e :: es, hj, hs, hf => by
    unfold newNodes
    by_cases ha : alloc ≤ 0
    · rw [if_pos ha]; exact ⟨by simp, fun _ _ h => absurd h (by simp; omega)⟩
    rw [if_neg ha]
    have hl : (e :: es).length = es.length + 1 := rfl
    have hdl : ((e :: es).drop maxElts).length = es.length + 1 - maxElts := by rw [List.length_drop, hl]
    have hml : 0 < maxElts := by unfold maxElts; omega
    generalize hes : e :: es = l at hs hf hl hdl ⊢
    have hd : durs l = durs (l.take maxElts) ++ durs (l.drop maxElts) := by rw [← durs_append, List.take_append_drop]
    have hs' := hs
    rw [← List.take_append_drop maxElts l] at hs'
    obtain ⟨s1, s2⟩ := hs'.split
    obtain ⟨a1, a2⟩ := takeElts_def hM (l.take maxElts) j t hj s1
    cases h1 : takeElts M j t (l.take maxElts) with
    | ub => exact absurd h1 a1
    | err =>
      refine ⟨(fun h => nomatch h), fun h2 h3 _ => absurd h1 (a2 (fun x hx => h2 x (List.mem_of_mem_take hx)) ?_)⟩
      rw [hd, List.length_append] at h3; omega
    | ok r =>
      obtain ⟨j1, t1⟩ := r
      obtain ⟨b1, b2, b3, b4⟩ := takeElts_ok hM _ j t j1 t1 hj h1
      rw [Res.bind_ok]
      dsimp only
      obtain ⟨c1, c2⟩ := newNodes_def (p := p) hM f (alloc - 1) j1 t1 (l.drop maxElts) b2 (by rw [b3]; exact s2) (by omega)
      cases h2 : newNodes M p f (alloc - 1) j1 t1 (l.drop maxElts) with
      | ub => exact absurd h2 c1
      | err =>
        refine ⟨(fun h => nomatch h), fun h3 h4 h5 => absurd h2 (c2 (fun x hx => h3 x (List.mem_of_mem_drop hx)) ?_ (by omega))⟩
        rw [hd, List.length_append] at h4; omega
      | ok r => exact ⟨(fun h => nomatch h), (fun _ _ _ h => nomatch h)⟩

theorem Chain.segs {p j j' : Nat} {t t' : Int} {ns : List Node} (h : Chain p j t ns j' t') :
    ns.flatMap Node.segs = seq j t (durs (ns.flatMap (·.elts))) ∧ j' = j + (durs (ns.flatMap (·.elts))).length ∧
      t' = t + ((durs (ns.flatMap (·.elts))).sum : Nat) ∧ ∀ n ∈ ns, NodeW n ∧ n.period = p := by
  induction h with
  | nil j t => exact ⟨rfl, by simp [durs], by simp [durs], fun _ h => absurd h List.not_mem_nil⟩
  | @cons n ns j' t' hw hp _ ih =>
    obtain ⟨h1, h2, h3, h4⟩ := ih
    have hl := hw.last
    have hf : n.fin = n.time + ((durs n.elts).sum : Nat) := rfl
    rw [List.flatMap_cons, List.flatMap_cons, durs_append, List.length_append, List.sum_append]
    refine ⟨?_, by omega, by omega, fun m hm => ?_⟩
    · rw [h1, seq_append]; unfold Node.segs; rw [hl, hf]
    · rcases List.mem_cons.1 hm with e | hm
      · rw [e]; exact ⟨hw, hp⟩
      · exact h4 m hm

/-- Nodes that follow the nodes of a list. -/
theorem inv_chain {mono : Bool} {p j j' : Nat} {t t' : Int} {ns : List Node} (h : Chain p j t ns j' t') : ∀ {s s' : SL}, Inv mono s →
    (∀ n, s.nodes.getLast? = some n → n.last < j ∧ (mono = true → n.fin ≤ t) ∧
      p = if j = n.last + 1 ∧ t = n.fin then n.period else n.period + 1) →
    -B ≤ t → t' ≤ B → (∀ n ∈ ns, ∀ e ∈ n.elts, e.dur < 2 ^ 32) →
    s'.nodes = s.nodes ++ ns → (ns = [] → s'.lastTime = s.lastTime) → s'.lastTime = t' ∨ ns = [] → s'.nodeCount = s.nodeCount + ns.length →
    s'.eltCount = s.eltCount + (ns.map (·.elts.length)).sum → s'.segCount = s.segCount + (j' - j) → Inv mono s' := by
  induction h with
  | nil j t =>
    intro s s' hi _ _ _ _ e1 e2 _ e4 e5 e6
    rw [List.append_nil] at e1
    refine ⟨by rw [e1]; exact hi.ok, by rw [e1]; exact hi.link, by rw [e1, e2 rfl]; exact hi.last, by rw [e1, e4]; exact hi.cn, ?_, ?_⟩
    · rw [e1, e5]; simpa using hi.ce
    · unfold SegmentList.segs; rw [e1, e6, Nat.sub_self]; exact hi.cs
  | @cons n ns j' t' hw hp hc ih =>
    intro s s' hi hl hB1 hB2 hsm e1 _ e3 e4 e5 e6
    obtain ⟨_, g2, g3, _⟩ := hc.segs
    have hwl := hw.last
    have hfin : n.fin = n.time + ((durs n.elts).sum : Nat) := rfl
    have hno : NodeOk n := ⟨hw.ne, hw.len, hw.pos, hsm n (by simp), hw.last, Nat.lt_of_succ_lt hw.bound, hB1, by omega⟩
    have h1 : Inv mono { s with nodes := s.nodes ++ [n], nodeCount := s.nodeCount + 1, eltCount := s.eltCount + n.elts.length
                                segCount := s.segCount + (n.last + 1 - n.key), lastTime := n.fin } := by
      refine inv_of_concat (l := s.nodes) (n := n) rfl hi.ok hi.link hno (fun z hz => ?_) rfl ?_ ?_ ?_
      · obtain ⟨l1, l2, l3⟩ := hl z hz
        exact ⟨l1, by rw [hp]; exact l3, l2⟩
      · dsimp only; rw [hi.cn]; simp
      · dsimp only; rw [hi.ce]; simp
      · dsimp only; unfold SegmentList.segs; rw [hi.cs, List.flatMap_append, List.length_append, List.flatMap_singleton]
        unfold Node.segs; rw [seq_length]; unfold SegmentList.segs; congr 1; omega
    refine ih h1 (fun m hm => ?_) (by omega) hB2 (fun m hm => hsm m (List.mem_cons_of_mem _ hm)) (by dsimp only; rw [e1]; simp)
      (fun he => ?_) ?_ (by dsimp only; rw [e4]; simp; omega) (by dsimp only; rw [e5]; simp; omega) (by dsimp only; rw [e6]; omega)
    · dsimp only at hm
      rw [List.getLast?_concat] at hm
      injection hm with hm
      subst hm
      exact ⟨by omega, fun _ => Int.le_refl _, by rw [if_pos ⟨rfl, rfl⟩]; exact hp.symm⟩
    · dsimp only
      rcases e3 with e3 | e3
      · rw [e3, g3, he]; simp [durs]
      · exact absurd e3 (by simp)
    · rcases e3 with e3 | e3
      · exact .inl e3
      · exact absurd e3 (by simp)

/-- The last node gets more elements. -/
theorem inv_extend {mono : Bool} {s s' : SL} (h : Inv mono s) {l : List Node} {n : Node} (hn : s.nodes = l ++ [n]) {es : List Elt}
    {ds : List Nat} {L : Nat} (he : durs es = durs n.elts ++ ds) (hlen : es.length ≤ maxElts) (hpos : ∀ e ∈ es, 0 < e.count)
    (hne : es ≠ []) (hsm : ∀ e ∈ es, e.dur < 2 ^ 32) (hL : L = n.last + ds.length) (hb : L < 2 ^ 32) (hB : s.lastTime + (ds.sum : Nat) ≤ B)
    (e1 : s'.nodes = l ++ [{ n with elts := es, last := L }]) (e2 : s'.lastTime = s.lastTime + (ds.sum : Nat))
    (e3 : s'.nodeCount = s.nodeCount) (e4 : s'.eltCount + n.elts.length = s.eltCount + es.length)
    (e5 : s'.segCount = s.segCount + ds.length) :
    Inv mono s' ∧ segs s' = segs s ++ seq (n.last + 1) s.lastTime ds := by
  have ho := h.ok n (by rw [hn]; simp)
  have hlast := h.last n (by rw [hn]; simp)
  have hlink := h.link
  rw [hn, adj_snoc] at hlink
  have hfin : n.fin = n.time + ((durs n.elts).sum : Nat) := rfl
  have hl := ho.last
  have hseg : segs s' = segs s ++ seq (n.last + 1) s.lastTime ds := by
    unfold segs
    rw [e1, hn, List.flatMap_append, List.flatMap_append, List.flatMap_singleton, List.flatMap_singleton, List.append_assoc]
    unfold Node.segs
    dsimp only
    rw [he, seq_append, hl, hlast, hfin]
  refine ⟨inv_of_concat e1 (fun m hm => h.ok m (by rw [hn]; exact List.mem_append_left _ hm)) hlink.1
    ⟨hne, hlen, hpos, hsm, ?_, hb, ho.lo, ?_⟩ (fun z hz => ?_) ?_ ?_ ?_ ?_, hseg⟩
  · dsimp only; rw [he, List.length_append]; omega
  · unfold Node.fin; dsimp only; rw [he, List.sum_append]; omega
  · obtain ⟨h1, h2, h3⟩ := hlink.2 z hz
    exact ⟨h1, h2, h3⟩
  · rw [e2, hlast]; unfold Node.fin; dsimp only; rw [he, List.sum_append]; omega
  · rw [e3, e1, h.cn, hn]; simp
  · rw [h.ce, hn] at e4; rw [e1]; simp at e4 ⊢; omega
  · rw [e5, hseg, List.length_append, seq_length, h.cs]

end Verif.SegmentList
