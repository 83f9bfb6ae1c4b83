import Verif.SegmentListRead

/-!
# Segment list: reading a period into a list
-/

namespace Verif.SegmentList

/-- What holds for every list that was read, even from data that is bad. -/
structure Weak (s : SL) : Prop where
  ok : ∀ n ∈ s.nodes, NodeW n
  last : ∀ n, s.nodes.getLast? = some n → s.lastTime = n.fin

theorem Inv.weak {mono : Bool} {s : SL} (h : Inv mono s) (hb : ∀ g ∈ segs s, g.idx + 1 < 2 ^ 32) : Weak s := by
  refine ⟨fun n hn => ⟨(h.ok n hn).ne, (h.ok n hn).len, (h.ok n hn).pos, (h.ok n hn).last, ?_⟩, h.last⟩
  obtain ⟨g, h1, h2, _⟩ := node_last (h.ok n hn)
  have := hb g (List.mem_flatMap.2 ⟨n, hn, List.mem_of_getLast? h1⟩)
  omega

/-- The nodes are new, in a new period. -/
structure ReadNew (s s' : SL) (idx : Nat) (time : Int) (es : List Elt) (ns : List Node) (p : Nat) : Prop where
  nodes : s'.nodes = s.nodes ++ ns
  chain : Chain p idx time ns (idx + (durs es).length) (time + ((durs es).sum : Nat))
  elts : ns.flatMap (·.elts) = es
  cn : s'.nodeCount = s.nodeCount + ns.length
  ce : s'.eltCount = s.eltCount + es.length
  period : ∀ n, s.nodes.getLast? = some n → p = n.period + 1 ∧ ¬ (time = s.lastTime ∧ idx = add32 n.last 1)

/-- The last node went on. -/
structure ReadMore (s s' : SL) (idx : Nat) (time : Int) (es : List Elt) (l : List Node) (n : Node) (E : List Elt) (L : Nat) (ds : List Nat)
    (ns : List Node) (es2 : List Elt) : Prop where
  old : s.nodes = l ++ [n]
  hidx : idx = n.last + 1
  htime : time = s.lastTime
  hdurs : durs E = durs n.elts ++ ds
  len : E.length ≤ maxElts
  pos : ∀ e ∈ E, 0 < e.count
  ne : E ≠ []
  small : ∀ e ∈ E, (∃ e' ∈ n.elts, e'.dur = e.dur) ∨ e ∈ es
  last : L = n.last + ds.length
  bound : L + 1 < 2 ^ 32
  nodes : s'.nodes = l ++ [{ n with elts := E, last := L }] ++ ns
  chain : Chain n.period (L + 1) (time + (ds.sum : Nat)) ns (idx + (durs es).length) (time + ((durs es).sum : Nat))
  elts : ns.flatMap (·.elts) = es2
  sub : ∀ e ∈ es2, e ∈ es
  split : durs es = ds ++ durs es2
  cn : s'.nodeCount = s.nodeCount + ns.length
  ce : s'.eltCount + n.elts.length = s.eltCount + E.length + es2.length

/-- What reading a period does. -/
structure ReadRes (s s' : SL) (sc : Scope) (idx : Nat) (time : Int) (es : List Elt) : Prop where
  fits : idx + (durs es).length ≤ sc.max + 1
  pos : ∀ e ∈ es, 0 < e.count
  later : s.nodes ≠ [] → s.lastTime ≤ time
  first : ∀ n, s.nodes.getLast? = some n → s.isFirst = true → n.last < sc.min
  lt : s'.lastTime = time + ((durs es).sum : Nat)
  ft : s'.isFirst = false
  cs : s'.segCount = s.segCount + (durs es).length
  res : (∃ ns p, ReadNew s s' idx time es ns p) ∨ ∃ l n E L ds ns es2, ReadMore s s' idx time es l n E L ds ns es2

theorem readRest_ok {s s' : SL} {M alloc period start idx nelts : Nat} {pre : List Node} {time : Int} {es : List Elt} (hM : M < 2 ^ 32) (hi : idx ≤ M)
    (hst : start ≤ idx) (h : readRest s M alloc pre period start idx time es nelts = .ok s') :
    ∃ ns, s'.nodes = pre ++ ns ∧ s'.nodeCount = s.nodeCount + ns.length ∧ s'.eltCount = s.eltCount + nelts ∧
      s'.segCount = s.segCount + (idx + (durs es).length - start) ∧ s'.lastTime = time + ((durs es).sum : Nat) ∧ s'.isFirst = false ∧
      idx + (durs es).length ≤ M ∧ (∀ e ∈ es, 0 < e.count) ∧
      Chain period idx time ns (idx + (durs es).length) (time + ((durs es).sum : Nat)) ∧ ns.flatMap (·.elts) = es := by
  unfold readRest at h
  cases h1 : newNodes M period es.length alloc idx time es with
  | err => rw [h1] at h; exact nomatch h
  | ub => rw [h1] at h; exact nomatch h
  | ok r =>
    obtain ⟨ns, i, t⟩ := r
    rw [h1, Res.bind_ok] at h
    dsimp only at h
    injection h with h
    obtain ⟨a1, a2, a3, a4, a5, a6⟩ := newNodes_ok hM _ _ _ _ _ _ _ _ hi h1
    subst h a1 a3
    refine ⟨ns, rfl, rfl, rfl, ?_, rfl, rfl, a2, a4, a5, a6⟩
    dsimp only
    rw [sub32_ok (by omega)]

theorem mem_setLast {α : Type} {l : List α} {x y : α} (h : y ∈ setLast l x) : y ∈ l ∨ y = x := by
  unfold setLast at h
  rcases List.mem_append.1 h with h | h
  · exact .inl (List.dropLast_subset _ h)
  · exact .inr (List.mem_singleton.1 h)

/-- What the merge of the first element does. -/
theorem merge_ok {M idx : Nat} {time : Int} {last es : List Elt} {old es' : List Elt} {i : Nat} {t : Int} (hM : M < 2 ^ 32) (hi : idx ≤ M)
    (hl : (durs last).length ≤ idx) (hne : last ≠ []) (hp : ∀ e ∈ last, 0 < e.count) (h : merge M idx time last es = .ok (old, i, t, es')) :
    ∃ ds, durs old = durs last ++ ds ∧ durs es = ds ++ durs es' ∧ i = idx + ds.length ∧ i ≤ M ∧ t = time + (ds.sum : Nat) ∧
      old.length = last.length ∧ (∀ e ∈ old, 0 < e.count) ∧ (∀ e ∈ old, ∃ e' ∈ last, e'.dur = e.dur) ∧ (∀ e ∈ es', e ∈ es) ∧
      ∀ e ∈ es, 0 < e.count ∨ e ∈ es' := by
  cases es with
  | nil => exact nomatch h
  | cons e es =>
    unfold merge at h
    rcases snoc_cases last with hz | ⟨a, d, hz⟩
    · exact absurd hz hne
    subst hz
    rw [List.getLast?_concat] at h
    dsimp only at h
    by_cases hd : d.dur = e.dur
    · rw [if_pos hd] at h
      cases h1 : takeElts M idx time [e] with
      | err => rw [h1] at h; exact nomatch h
      | ub => rw [h1] at h; exact nomatch h
      | ok r =>
        obtain ⟨i', t'⟩ := r
        rw [h1, Res.bind_ok] at h
        injection h with h
        injection h with e1 h
        injection h with e2 h
        injection h with e3 e4
        dsimp only at e1 e2 e3 e4
        obtain ⟨a1, a2, a3, a4⟩ := takeElts_ok hM _ _ _ _ _ hi h1
        rw [durs_one] at a1 a3
        have hlen : (durs (a ++ [d])).length = (durs a).length + d.count := by
          rw [durs_append, durs_one, List.length_append, List.length_replicate]
        have hec := a4 e (by simp)
        simp only [List.length_replicate] at a1
        have hadd : add32 d.count e.count = d.count + e.count := add32_ok (by omega)
        rw [setLast_concat, hadd] at e1
        subst e1 e2 e3 e4
        refine ⟨List.replicate e.count e.dur, ?_, durs_cons .., by rw [List.length_replicate]; exact a1, a2, a3, by simp, ?_, ?_,
          fun x hx => List.mem_cons_of_mem _ hx, ?_⟩
        · rw [durs_append, durs_append, durs_one, durs_one, List.append_assoc]
          dsimp only
          rw [← hd, ← List.replicate_append_replicate]
        · intro x hx
          rcases List.mem_append.1 hx with hx | hx
          · exact hp x (List.mem_append_left _ hx)
          · rw [List.mem_singleton.1 hx]; dsimp only; omega
        · intro x hx
          rcases List.mem_append.1 hx with hx | hx
          · exact ⟨x, List.mem_append_left _ hx, rfl⟩
          · exact ⟨d, by simp, by rw [List.mem_singleton.1 hx]⟩
        · intro x hx
          rcases List.mem_cons.1 hx with hx | hx
          · rw [hx]; exact .inl hec
          · exact .inr hx
    · rw [if_neg hd] at h
      injection h with h
      injection h with e1 h
      injection h with e2 h
      injection h with e3 e4
      subst e1 e2 e3 e4
      exact ⟨[], by simp, rfl, rfl, hi, by simp, rfl, hp, fun x hx => ⟨x, hx, rfl⟩, fun _ hx => hx, fun _ hx => .inr hx⟩

theorem readElts_ok {s s' : SL} {sc : Scope} {alloc idx : Nat} {time : Int} {es : List Elt} (hw : Weak s) (hM : sc.max + 1 < 2 ^ 32)
    (hi : idx ≤ sc.max) (h : readElts s sc alloc idx time es = .ok s') : ReadRes s s' sc idx time es := by
  unfold readElts at h
  rw [add32_ok hM] at h
  cases hn : s.nodes.getLast? with
  | none =>
    have hnil := List.getLast?_eq_none_iff.1 hn
    rw [hn] at h
    dsimp only at h
    obtain ⟨ns, a1, a2, a3, a4, a5, a6, a7, a8, a9, a10⟩ := readRest_ok hM (by omega) (Nat.le_refl _) h
    exact ⟨a7, a8, fun h => absurd hnil h, fun n h => (by rw [hn] at h; cases h), a5, a6, by omega,
      .inl ⟨ns, 0, by rw [hnil]; exact a1, a9, a10, a2, a3, fun n h => (by rw [hn] at h; cases h)⟩⟩
  | some n =>
    obtain ⟨l, el⟩ := getLast_concat hn
    rw [hn] at h
    dsimp only at h
    by_cases h1 : s.isFirst ∧ n.last ≥ sc.min
    · rw [if_pos h1] at h; exact nomatch h
    rw [if_neg h1] at h
    by_cases h2 : time < s.lastTime
    · rw [if_pos h2] at h; exact nomatch h
    rw [if_neg h2] at h
    have hfirst : ∀ m, s.nodes.getLast? = some m → s.isFirst = true → m.last < sc.min := by
      intro m hm hf
      rw [hn] at hm; injection hm with hm; subst hm
      exact Nat.lt_of_not_le fun hle => h1 ⟨hf, hle⟩
    by_cases h3 : time = s.lastTime ∧ idx = add32 n.last 1
    · rw [if_pos h3] at h
      have hwn := hw.ok n (by rw [el]; simp)
      have hwl := hwn.last
      have hwb := hwn.bound
      have hidx : idx = n.last + 1 := by rw [h3.2, add32_ok hwb]
      cases hm : merge (sc.max + 1) idx time n.elts es with
      | err => rw [hm] at h; exact nomatch h
      | ub => rw [hm] at h; exact nomatch h
      | ok r =>
        obtain ⟨old, i, t, es'⟩ := r
        rw [hm, Res.bind_ok] at h
        dsimp only at h
        obtain ⟨ds, m1, m2, m3, m4, m5, m6, m7, m8, m9, m10⟩ := merge_ok hM (by omega) (by omega) hwn.ne hwn.pos hm
        generalize hroom : maxElts - old.length = room at h
        cases ht : takeElts (sc.max + 1) i t (es'.take room) with
        | err => rw [ht] at h; exact nomatch h
        | ub => rw [ht] at h; exact nomatch h
        | ok r =>
          obtain ⟨i2, t2⟩ := r
          rw [ht, Res.bind_ok] at h
          dsimp only at h
          obtain ⟨b1, b2, b3, b4⟩ := takeElts_ok hM _ _ _ _ _ m4 ht
          obtain ⟨ns, a1, a2, a3, a4, a5, a6, a7, a8, a9, a10⟩ := readRest_ok hM b2 (by omega) h
          have hsp : durs es' = durs (es'.take room) ++ durs (es'.drop room) := by rw [← durs_append, List.take_append_drop]
          have hlen : (durs es).length = ds.length + (durs (es'.take room)).length + (durs (es'.drop room)).length := by
            rw [m2, hsp]; simp; omega
          have hsum : (durs es).sum = ds.sum + (durs (es'.take room)).sum + (durs (es'.drop room)).sum := by
            rw [m2, hsp]; simp; omega
          have hoe : old ≠ [] := by
            intro e; rw [e] at m6; exact hwn.ne (List.eq_nil_of_length_eq_zero m6.symm)
          have hwlen := hwn.len
          refine ⟨by omega, fun e he => ?_, fun _ => by omega, hfirst, by rw [a5, b3, m5, hsum]; omega, a6, by omega, ?_⟩
          · rcases m10 e he with he | he
            · exact he
            · rw [← List.take_append_drop room es'] at he
              rcases List.mem_append.1 he with he | he
              · exact b4 e he
              · exact a8 e he
          · right
            have hi2 : sub32 i2 1 = i2 - 1 := sub32_ok (by omega)
            refine ⟨l, n, old ++ es'.take room, i2 - 1, ds ++ durs (es'.take room), ns, es'.drop room, ?_⟩
            constructor
            · exact el
            · exact hidx
            · exact h3.1
            · rw [durs_append, m1, List.append_assoc]
            · rw [List.length_append, List.length_take]; omega
            · intro e he
              rcases List.mem_append.1 he with he | he
              · exact m7 e he
              · exact b4 e he
            · simp [hoe]
            · intro e he
              rcases List.mem_append.1 he with he | he
              · exact .inl (m8 e he)
              · exact .inr (m9 e (List.mem_of_mem_take he))
            · rw [List.length_append]; omega
            · omega
            · rw [a1, el, setLast_concat, hi2]
            · have e1 : i2 - 1 + 1 = i2 := by omega
              rw [e1, List.sum_append]
              have e2 : time + ((ds.sum + (durs (es'.take room)).sum : Nat) : Int) = t2 := by omega
              have e3 : idx + (durs es).length = i2 + (durs (es'.drop room)).length := by omega
              have e4 : time + ((durs es).sum : Nat) = t2 + ((durs (es'.drop room)).sum : Nat) := by omega
              rw [e2, e3, e4]; exact a9
            · exact a10
            · exact fun e he => m9 e (List.mem_of_mem_drop he)
            · rw [m2, hsp, List.append_assoc]
            · exact a2
            · rw [a3, List.length_append, List.length_take, List.length_drop]; omega
    · rw [if_neg h3] at h
      obtain ⟨ns, a1, a2, a3, a4, a5, a6, a7, a8, a9, a10⟩ := readRest_ok hM (by omega) (Nat.le_refl _) h
      refine ⟨a7, a8, fun _ => by omega, hfirst, a5, a6, by omega, .inl ⟨ns, n.period + 1, a1, a9, a10, a2, a3, fun m hm => ?_⟩⟩
      rw [hn] at hm; injection hm with hm; subst hm
      exact ⟨rfl, h3⟩

theorem elts_sum (ns : List Node) : (ns.map (·.elts.length)).sum = (ns.flatMap (·.elts)).length := by
  induction ns with
  | nil => rfl
  | cons n ns ih => rw [List.map_cons, List.sum_cons, List.flatMap_cons, List.length_append, ih]

/-- Reading data that follows what is there. -/
theorem read_inv {mono : Bool} {s s' : SL} {sc : Scope} {idx : Nat} {time : Int} {es : List Elt} (h : Inv mono s)
    (hr : ReadRes s s' sc idx time es) (hes : es ≠ []) (hlt : ∀ n, s.nodes.getLast? = some n → n.last + 1 < 2 ^ 32 ∧ n.last < idx) (hB1 : -B ≤ time)
    (hB2 : time + ((durs es).sum : Nat) ≤ B) (hsm : ∀ e ∈ es, e.dur < 2 ^ 32) :
    Inv mono s' ∧ segs s' = segs s ++ seq idx time (durs es) := by
  rcases hr.res with ⟨ns, p, hn⟩ | ⟨l, n, E, L, ds, ns, es2, hm⟩
  · obtain ⟨c1, _, _, c4⟩ := hn.chain.segs
    rw [hn.elts] at c1
    have hne : ns ≠ [] := by
      intro e; have := hn.elts; rw [e] at this; exact hes this.symm
    refine ⟨inv_chain hn.chain h (fun n hl => ?_) hB1 hB2 (fun n hm e he => ?_) hn.nodes (fun e => absurd e hne) (.inl hr.lt) hn.cn ?_ ?_, ?_⟩
    · obtain ⟨q1, q2⟩ := hn.period n hl
      obtain ⟨b1, b2⟩ := hlt n hl
      have hln : s.nodes ≠ [] := by intro e; rw [e] at hl; exact nomatch hl
      have hle := hr.later hln
      rw [h.last n hl] at hle q2
      rw [add32_ok b1] at q2
      exact ⟨b2, fun _ => hle, by rw [if_neg (fun hc => q2 ⟨hc.2, hc.1⟩)]; exact q1⟩
    · exact hsm e (by rw [← hn.elts]; exact List.mem_flatMap.2 ⟨n, hm, he⟩)
    · rw [elts_sum, hn.elts]; exact hn.ce
    · rw [hr.cs]; omega
    · unfold segs; rw [hn.nodes, List.flatMap_append, c1]
  · have hsum := congrArg List.sum hm.split
    have hlen := congrArg List.length hm.split
    rw [List.sum_append] at hsum
    rw [List.length_append] at hlen
    have hL := hm.last
    have hidx := hm.hidx
    obtain ⟨c1, c2, c3, _⟩ := hm.chain.segs
    rw [hm.elts] at c1 c2 c3
    obtain ⟨g1, g2⟩ := inv_extend (s' := { s with nodes := l ++ [{ n with elts := E, last := L }], lastTime := s.lastTime + (ds.sum : Nat)
                                                  eltCount := s.eltCount + E.length - n.elts.length, segCount := s.segCount + ds.length })
      h hm.old hm.hdurs hm.len hm.pos hm.ne (fun e he => by
        rcases hm.small e he with ⟨e', h1, h2⟩ | he
        · rw [← h2]; exact (h.ok n (by rw [hm.old]; simp)).small e' h1
        · exact hsm e he) hm.last (Nat.lt_of_succ_lt hm.bound) (by rw [← hm.htime]; omega) rfl rfl rfl (by
          have := h.ce
          rw [hm.old] at this
          simp at this
          dsimp only; omega) rfl
    have hce := hm.ce
    have hce' := h.ce
    rw [hm.old] at hce'
    simp at hce'
    refine ⟨inv_chain hm.chain g1 (fun m hl => ?_) (by omega) hB2 (fun m hmm e he => ?_) (by dsimp only; exact hm.nodes) (fun e => ?_) (.inl hr.lt)
      hm.cn ?_ ?_, ?_⟩
    · dsimp only at hl
      rw [List.getLast?_concat] at hl
      injection hl with hl
      subst hl
      have hf := g1.last _ (List.getLast?_concat ..)
      dsimp only at hf
      rw [← hm.htime] at hf
      exact ⟨by dsimp only; omega, fun _ => by rw [hf]; exact Int.le_refl _, by rw [if_pos ⟨rfl, hf⟩]⟩
    · exact hsm e (hm.sub e (by rw [← hm.elts]; exact List.mem_flatMap.2 ⟨m, hmm, he⟩))
    · dsimp only
      have := hm.elts
      rw [e] at this
      rw [hr.lt, ← hm.htime, hsum, ← this]
      simp [durs]
    · dsimp only; rw [elts_sum, hm.elts]; omega
    · dsimp only; rw [hr.cs]; omega
    · have : segs s' = segs s ++ seq (n.last + 1) s.lastTime ds ++ ns.flatMap Node.segs := by
        rw [← g2]; unfold segs; rw [hm.nodes, List.flatMap_append]
      rw [this, c1, hm.split, seq_append, List.append_assoc, hm.htime, hidx]
      congr 3
      omega

theorem Chain.last {p j j' : Nat} {t t' : Int} {ns : List Node} (h : Chain p j t ns j' t') : ∀ m, ns.getLast? = some m → m.fin = t' := by
  induction h with
  | nil => intro m hm; exact nomatch hm
  | @cons n ns j' t' hw hp hc ih =>
    intro m hm
    cases ns with
    | nil =>
      have h3 := hc.segs.2.2.1
      injection hm with hm
      rw [← hm, h3]; simp [durs]
    | cons k ns => exact ih m (by rw [List.getLast?_cons_cons] at hm; exact hm)

/-- Reading any data. -/
theorem read_weak {s s' : SL} {sc : Scope} {idx : Nat} {time : Int} {es : List Elt} (h : Weak s) (hr : ReadRes s s' sc idx time es) (hes : es ≠ []) :
    Weak s' ∧ segs s' = segs s ++ seq idx time (durs es) := by
  rcases hr.res with ⟨ns, p, hn⟩ | ⟨l, n, E, L, ds, ns, es2, hm⟩
  · obtain ⟨c1, _, _, c4⟩ := hn.chain.segs
    rw [hn.elts] at c1
    have hne : ns ≠ [] := by
      intro e; have := hn.elts; rw [e] at this; exact hes this.symm
    refine ⟨⟨fun m hm => ?_, fun m hm => ?_⟩, by unfold segs; rw [hn.nodes, List.flatMap_append, c1]⟩
    · rw [hn.nodes] at hm
      rcases List.mem_append.1 hm with hm | hm
      · exact h.ok m hm
      · exact (c4 m hm).1
    · rw [hn.nodes, List.getLast?_append] at hm
      cases hl : ns.getLast? with
      | none => exact absurd (List.getLast?_eq_none_iff.1 hl) hne
      | some k =>
        rw [hl] at hm
        injection hm with hm
        rw [hr.lt, ← hm, hn.chain.last k hl]
  · have hsum := congrArg List.sum hm.split
    rw [List.sum_append] at hsum
    obtain ⟨c1, c2, c3, c4⟩ := hm.chain.segs
    have hwn := h.ok n (by rw [hm.old]; simp)
    have hwl := hwn.last
    have hf := h.last n (by rw [hm.old]; simp)
    have hfin : n.fin = n.time + ((durs n.elts).sum : Nat) := rfl
    refine ⟨⟨fun m hmm => ?_, fun m hmm => ?_⟩, ?_⟩
    · rw [hm.nodes] at hmm
      rcases List.mem_append.1 hmm with hmm | hmm
      · rcases List.mem_append.1 hmm with hmm | hmm
        · exact h.ok m (by rw [hm.old]; exact List.mem_append_left _ hmm)
        · rw [List.mem_singleton.1 hmm]
          refine ⟨hm.ne, hm.len, hm.pos, ?_, hm.bound⟩
          dsimp only
          rw [hm.hdurs, hm.last, List.length_append]; omega
      · exact (c4 m hmm).1
    · rw [hm.nodes, List.getLast?_append] at hmm
      cases hl : ns.getLast? with
      | none =>
        have hnil := List.getLast?_eq_none_iff.1 hl
        rw [hl, List.getLast?_concat] at hmm
        injection hmm with hmm
        have he2 := hm.elts
        rw [hnil] at he2
        rw [hr.lt, ← hmm, hm.htime, hf, hsum, ← he2]
        unfold Node.fin
        dsimp only
        rw [hm.hdurs, List.sum_append]
        simp [durs]
        omega
      | some k =>
        rw [hl] at hmm
        injection hmm with hmm
        rw [hr.lt, ← hmm, hm.chain.last k hl]
    · unfold segs
      rw [hm.nodes, hm.old, List.flatMap_append, List.flatMap_append, List.flatMap_append, List.flatMap_singleton, List.flatMap_singleton, c1, hm.elts,
        hm.split, seq_append]
      unfold Node.segs
      dsimp only
      rw [hm.hdurs, seq_append, List.append_assoc, List.append_assoc, List.append_assoc, hm.htime, hf, hm.hidx, hfin, show L + 1 = n.last + 1 + ds.length by have := hm.last; omega, hwl]

/-! ## When reading works -/

theorem readRest_def {s : SL} {M alloc period start idx nelts : Nat} {pre : List Node} {time : Int} {es : List Elt} (hM : M < 2 ^ 32) (hi : idx ≤ M)
    (hs : Small time es) : readRest s M alloc pre period start idx time es nelts ≠ .ub ∧
    ((∀ e ∈ es, 0 < e.count) → idx + (durs es).length ≤ M → es.length ≤ alloc → readRest s M alloc pre period start idx time es nelts ≠ .err) := by
  obtain ⟨a1, a2⟩ := newNodes_def (p := period) hM es.length alloc idx time es hi hs (Nat.le_refl _)
  unfold readRest
  cases h1 : newNodes M period es.length alloc idx time es with
  | ub => exact absurd h1 a1
  | err => exact ⟨(fun h => nomatch h), fun b1 b2 b3 => absurd h1 (a2 b1 b2 b3)⟩
  | ok r => exact ⟨(fun h => nomatch h), (fun _ _ _ h => nomatch h)⟩

theorem merge_def {M idx : Nat} {time : Int} {last es : List Elt} (hM : M < 2 ^ 32) (hi : idx ≤ M) (hne : last ≠ []) (hes : es ≠ [])
    (hs : Small time es) : merge M idx time last es ≠ .ub ∧
    ((∀ e ∈ es, 0 < e.count) → idx + (durs es).length ≤ M → merge M idx time last es ≠ .err) := by
  cases es with
  | nil => exact absurd rfl hes
  | cons e es =>
    have hs' : Small time ([e] ++ es) := hs
    obtain ⟨s1, _⟩ := hs'.split
    obtain ⟨a1, a2⟩ := takeElts_def hM [e] idx time hi s1
    rw [durs_one, List.length_replicate] at a2
    unfold merge
    cases hl : last.getLast? with
    | none => exact absurd (List.getLast?_eq_none_iff.1 hl) hne
    | some d =>
      dsimp only
      by_cases hd : d.dur = e.dur
      · rw [if_pos hd]
        cases h1 : takeElts M idx time [e] with
        | ub => exact absurd h1 a1
        | err =>
          refine ⟨(fun h => nomatch h), fun b1 b2 => absurd h1 (a2 (fun x hx => b1 x ?_) ?_)⟩
          · rw [List.mem_singleton.1 hx]; simp
          · rw [durs_cons, List.length_append, List.length_replicate] at b2; omega
        | ok r => exact ⟨(fun h => nomatch h), (fun _ _ h => nomatch h)⟩
      · rw [if_neg hd]; exact ⟨by simp, by simp⟩

/-- When the sums are in range nothing is undefined, and data that is right is read. -/
theorem readElts_def {s : SL} {sc : Scope} {alloc idx : Nat} {time : Int} {es : List Elt} (hw : Weak s) (hM : sc.max + 1 < 2 ^ 32)
    (hi : idx ≤ sc.max) (hes : es ≠ []) (hs : Small time es) : readElts s sc alloc idx time es ≠ .ub ∧
    ((∀ e ∈ es, 0 < e.count) → idx + (durs es).length ≤ sc.max + 1 → es.length ≤ alloc → (s.nodes ≠ [] → s.lastTime ≤ time) →
      (∀ n, s.nodes.getLast? = some n → s.isFirst = true → n.last < sc.min) → readElts s sc alloc idx time es ≠ .err) := by
  unfold readElts
  rw [add32_ok hM]
  cases hn : s.nodes.getLast? with
  | none =>
    dsimp only
    obtain ⟨a1, a2⟩ := readRest_def (s := s) (alloc := alloc) (period := 0) (start := idx) (nelts := es.length) (pre := []) hM (show idx ≤ sc.max + 1 by omega) hs
    exact ⟨a1, fun b1 b2 b3 _ _ => a2 b1 b2 b3⟩
  | some n =>
    obtain ⟨l, el⟩ := getLast_concat hn
    dsimp only
    by_cases h1 : s.isFirst ∧ n.last ≥ sc.min
    · rw [if_pos h1]
      refine ⟨by simp, fun _ _ _ _ b5 => ?_⟩
      have := b5 n rfl h1.1
      omega
    rw [if_neg h1]
    by_cases h2 : time < s.lastTime
    · rw [if_pos h2]
      refine ⟨by simp, fun _ _ _ b4 _ => ?_⟩
      have := b4 (by rw [el]; simp)
      omega
    rw [if_neg h2]
    by_cases h3 : time = s.lastTime ∧ idx = add32 n.last 1
    · rw [if_pos h3]
      have hwn := hw.ok n (by rw [el]; simp)
      have hwl := hwn.last
      have hwb := hwn.bound
      have hidx : idx = n.last + 1 := by rw [h3.2, add32_ok hwb]
      obtain ⟨c1, c2⟩ := merge_def hM (show idx ≤ sc.max + 1 by omega) hwn.ne hes hs
      cases hm : merge (sc.max + 1) idx time n.elts es with
      | ub => exact absurd hm c1
      | err => exact ⟨(fun h => nomatch h), fun b1 b2 _ _ _ => absurd hm (c2 b1 b2)⟩
      | ok r =>
        obtain ⟨old, i, t, es'⟩ := r
        rw [Res.bind_ok]
        dsimp only
        obtain ⟨ds, m1, m2, m3, m4, m5, m6, m7, m8, m9, m10⟩ := merge_ok hM (by omega) (by omega) hwn.ne hwn.pos hm
        have hs1 : Small t es' := by
          unfold Small at hs ⊢
          rw [m2, List.sum_append] at hs
          omega
        have hlen' : es'.length ≤ es.length := by
          unfold merge at hm
          cases es with
          | nil => exact absurd rfl hes
          | cons e es =>
            cases hl : n.elts.getLast? with
            | none => rw [hl] at hm; exact nomatch hm
            | some d =>
              rw [hl] at hm
              dsimp only at hm
              by_cases hd : d.dur = e.dur
              · rw [if_pos hd] at hm
                cases ht : takeElts (sc.max + 1) idx time [e] with
                | ub => rw [ht] at hm; exact nomatch hm
                | err => rw [ht] at hm; exact nomatch hm
                | ok r =>
                  obtain ⟨u, v⟩ := r
                  rw [ht, Res.bind_ok] at hm
                  injection hm with hm
                  simp only [Prod.mk.injEq] at hm
                  rw [← hm.2.2.2]; simp
              · rw [if_neg hd] at hm
                injection hm with hm
                simp only [Prod.mk.injEq] at hm
                rw [← hm.2.2.2]; simp
        generalize hroom : maxElts - old.length = room
        have hs2 := hs1
        rw [← List.take_append_drop room es'] at hs2
        obtain ⟨s3, s4⟩ := hs2.split
        have hsp : durs es' = durs (es'.take room) ++ durs (es'.drop room) := by rw [← durs_append, List.take_append_drop]
        have hlen : (durs es).length = ds.length + (durs (es'.take room)).length + (durs (es'.drop room)).length := by
          rw [m2, hsp]; simp; omega
        obtain ⟨t1, t2⟩ := takeElts_def hM (es'.take room) i t m4 s3
        cases ht : takeElts (sc.max + 1) i t (es'.take room) with
        | ub => exact absurd ht t1
        | err =>
          exact ⟨(fun h => nomatch h), fun b1 b2 _ _ _ => absurd ht (t2 (fun e he => b1 e (m9 e (List.mem_of_mem_take he))) (by omega))⟩
        | ok r =>
          obtain ⟨i2, tt2⟩ := r
          rw [Res.bind_ok]
          dsimp only
          obtain ⟨b1, b2, b3, b4⟩ := takeElts_ok hM _ _ _ _ _ m4 ht
          obtain ⟨a1, a2⟩ := readRest_def (s := s) (alloc := alloc) (period := n.period) (start := idx) (nelts := es'.length)
            (pre := setLast s.nodes { n with elts := old ++ es'.take room, last := sub32 i2 1 }) hM b2 (b3 ▸ s4)
          exact ⟨a1, fun c1 c2 c3 _ _ => a2 (fun e he => c1 e (m9 e (List.mem_of_mem_drop he))) (by omega) (by rw [List.length_drop]; omega)⟩
    · rw [if_neg h3]
      obtain ⟨a1, a2⟩ := readRest_def (s := s) (alloc := alloc) (period := n.period + 1) (start := idx) (nelts := es.length) (pre := s.nodes) hM (show idx ≤ sc.max + 1 by omega) hs
      exact ⟨a1, fun b1 b2 b3 _ _ => a2 b1 b2 b3⟩

end Verif.SegmentList
