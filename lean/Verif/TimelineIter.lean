import Verif.SegmentListProps
import Verif.Timeline

/-!
# Timelines: iterators of the segment list while it changes
-/

namespace Verif.SegmentList

theorem ahead_shift {s s' : SL} {pre : List Node} (h : s.nodes = pre ++ s'.nodes) (it : Iter) :
    ahead s { it with node := pre.length + it.node } = ahead s' it := by
  unfold ahead
  dsimp only
  rw [h, List.getElem?_append_right (by omega), Nat.add_sub_cancel_left, List.drop_append, List.drop_eq_nil_of_le (by omega),
    List.nil_append, show pre.length + it.node + 1 - pre.length = it.node + 1 by omega]

theorem ok_shift {s s' : SL} {pre : List Node} (h : s.nodes = pre ++ s'.nodes) (it : Iter) :
    ({ it with node := pre.length + it.node } : Iter).Ok s ↔ it.Ok s' := by
  unfold Iter.Ok
  dsimp only
  rw [h, List.getElem?_append_right (by omega), Nat.add_sub_cancel_left]

/-- A node at the end is replaced. -/
theorem iter_setLast {s s' : SL} {l : List Node} {n n' : Node} (h : s.nodes = l ++ [n]) (h' : s'.nodes = l ++ [n']) {tl : List Nat}
    {it : Iter} (ho : it.Ok s) (hlt : it.node < l.length)
    (e : durs n'.elts = durs n.elts ++ tl) : it.Ok s' ∧ ahead s' it = ahead s it ++ tl := by
  obtain ⟨m, e0, h1, h2, h3⟩ := ho
  have h1' : s'.nodes[it.node]? = some m := by
    rw [h, List.getElem?_append_left hlt] at h1
    rw [h', List.getElem?_append_left hlt]; exact h1
  refine ⟨⟨m, e0, h1', h2, h3⟩, ?_⟩
  rw [ahead_eq h1 h2, ahead_eq h1' h2, h, h', List.drop_append_of_le_length (by omega), List.drop_append_of_le_length (by omega)]
  simp only [List.flatMap_append, List.flatMap_singleton, e, List.append_assoc]

/-- The new segment is ahead of every iterator. -/
theorem add_iter {s s' : SL} {idx dur : Nat} {time : Int} {alloc : Bool}
    (he : add s alloc idx time dur = .ok s') {it : Iter} (ho : it.Ok s) : it.Ok s' ∧ ahead s' it = ahead s it ++ [dur] := by
  obtain ⟨n0, e0, h1, h2, h3⟩ := ho
  have hnode : ∀ p, addNode s alloc idx time dur p = .ok s' → it.Ok s' ∧ ahead s' it = ahead s it ++ [dur] := by
    intro p hp
    unfold addNode at hp
    cases alloc with
    | false => exact nomatch hp
    | true =>
      rw [if_pos rfl] at hp
      cases hi : i64 (time + dur) with
      | ok v =>
        rw [hi] at hp
        injection hp with hp
        subst hp
        have hlt := (List.getElem?_eq_some_iff.1 h1).1
        have h1' : (s.nodes ++ [{ key := idx, time, last := idx, period := p, elts := [{ dur, count := 1 }] }])[it.node]? = some n0 := by
          rw [List.getElem?_append_left hlt]; exact h1
        refine ⟨⟨n0, e0, h1', h2, h3⟩, ?_⟩
        rw [ahead_eq h1 h2, ahead_eq h1' h2]
        dsimp only
        rw [List.drop_append_of_le_length (by omega), List.flatMap_append, List.flatMap_singleton, durs_one]
        simp only [List.append_assoc]
        rfl
      | err => rw [hi] at hp; exact nomatch hp
      | ub => rw [hi] at hp; exact nomatch hp
  unfold add at he
  cases hn : s.nodes.getLast? with
  | none => rw [hn] at he; exact hnode _ he
  | some n =>
    rw [hn] at he
    dsimp only at he
    obtain ⟨l, el⟩ := getLast_concat hn
    by_cases hc : time = s.lastTime ∧ idx = add32 n.last 1
    · rw [if_pos hc] at he
      cases hg : n.elts.getLast? with
      | none => rw [hg] at he; exact nomatch he
      | some e =>
        rw [hg] at he
        dsimp only at he
        obtain ⟨es, ee⟩ := getLast_concat hg
        have hi : ∀ {a : Int → SL}, (i64 (time + dur) >>= fun t => Res.ok (a t)) = .ok s' → ∃ t, s' = a t := by
          intro a ha
          cases hi : i64 (time + dur) with
          | ok v => rw [hi] at ha; injection ha with ha; exact ⟨v, ha.symm⟩
          | err => rw [hi] at ha; exact nomatch ha
          | ub => rw [hi] at ha; exact nomatch ha
        by_cases hd : e.dur = dur
        · rw [if_pos hd] at he
          obtain ⟨t, rfl⟩ := hi he
          have en : setLast s.nodes { n with elts := setLast n.elts { e with count := e.count + 1 }, last := idx } =
              l ++ [{ n with elts := es ++ [{ e with count := e.count + 1 }], last := idx }] := by
            rw [el, setLast_concat]
            simp only [ee, setLast_concat]
          by_cases hlt : it.node < l.length
          · exact iter_setLast el (by dsimp only; exact en) ⟨n0, e0, h1, h2, h3⟩ hlt (by
              dsimp only; rw [durs_succ, ee, hd])
          · -- in the last node
            have hl := (List.getElem?_eq_some_iff.1 h1).1
            have hnd : it.node = l.length := by rw [el] at hl; simp at hl; omega
            have hn0 : n0 = n := by
              rw [el, hnd] at h1; simpa using h1.symm
            subst hn0
            have h1' : (setLast s.nodes { n0 with elts := setLast n0.elts { e with count := e.count + 1 }, last := idx })[it.node]? =
                some { n0 with elts := es ++ [{ e with count := e.count + 1 }], last := idx } := by
              rw [en, hnd]; simp
            have hd2 : s.nodes.drop (it.node + 1) = [] := List.drop_eq_nil_of_le (by rw [el]; simp; omega)
            have hd2' : (setLast s.nodes { n0 with elts := setLast n0.elts { e with count := e.count + 1 }, last := idx }).drop (it.node + 1) = [] :=
              List.drop_eq_nil_of_le (by rw [en]; simp; omega)
            by_cases hel : it.elt < es.length
            · have h2' : (es ++ [{ e with count := e.count + 1 }])[it.elt]? = some e0 := by
                rw [ee, List.getElem?_append_left hel] at h2
                rw [List.getElem?_append_left hel]; exact h2
              refine ⟨⟨_, e0, h1', h2', h3⟩, ?_⟩
              rw [ahead_eq h1 h2, ahead_eq h1' h2']
              dsimp only
              rw [hd2, hd2', ee, List.drop_append_of_le_length (by omega), List.drop_append_of_le_length (by omega),
                durs_succ, ← hd]
              simp
            · have hll := (List.getElem?_eq_some_iff.1 h2).1
              have hie : it.elt = es.length := by rw [ee] at hll; simp at hll; omega
              have he0 : e0 = e := by
                rw [ee, hie] at h2; simpa using h2.symm
              subst he0
              have h2' : (es ++ [{ e0 with count := e0.count + 1 }])[it.elt]? = some { e0 with count := e0.count + 1 } := by
                rw [hie]; simp
              refine ⟨⟨_, _, h1', h2', by dsimp only; omega⟩, ?_⟩
              rw [ahead_eq h1 h2, ahead_eq h1' h2']
              dsimp only
              rw [hd2, hd2', ee, List.drop_eq_nil_of_le (by simp; omega), List.drop_eq_nil_of_le (by simp; omega),
                show e0.count + 1 - it.off = (e0.count - it.off) + 1 by omega, List.replicate_succ', hd]
              simp [durs]
        · rw [if_neg hd] at he
          by_cases hl : n.elts.length < maxElts
          · rw [if_pos hl] at he
            obtain ⟨t, rfl⟩ := hi he
            have en : setLast s.nodes { n with elts := n.elts ++ [{ dur, count := 1 }], last := idx } =
                l ++ [{ n with elts := n.elts ++ [{ dur, count := 1 }], last := idx }] := by
              rw [el, setLast_concat]
            by_cases hlt : it.node < l.length
            · exact iter_setLast el (by dsimp only; exact en) ⟨n0, e0, h1, h2, h3⟩ hlt (by
                dsimp only; rw [durs_append, durs_one]; rfl)
            · have hl := (List.getElem?_eq_some_iff.1 h1).1
              have hnd : it.node = l.length := by rw [el] at hl; simp at hl; omega
              have hn0 : n0 = n := by
                rw [el, hnd] at h1; simpa using h1.symm
              subst hn0
              have h1' : (setLast s.nodes { n0 with elts := n0.elts ++ [{ dur, count := 1 }], last := idx })[it.node]? =
                  some { n0 with elts := n0.elts ++ [{ dur, count := 1 }], last := idx } := by
                rw [en, hnd]; simp
              have hd2 : s.nodes.drop (it.node + 1) = [] := List.drop_eq_nil_of_le (by rw [el]; simp; omega)
              have hd2' : (setLast s.nodes { n0 with elts := n0.elts ++ [{ dur, count := 1 }], last := idx }).drop (it.node + 1) = [] :=
                List.drop_eq_nil_of_le (by rw [en]; simp; omega)
              have hll := (List.getElem?_eq_some_iff.1 h2).1
              have h2' : (n0.elts ++ [{ dur, count := 1 }])[it.elt]? = some e0 := by
                rw [List.getElem?_append_left hll]; exact h2
              refine ⟨⟨_, e0, h1', h2', h3⟩, ?_⟩
              rw [ahead_eq h1 h2, ahead_eq h1' h2']
              dsimp only
              rw [hd2, hd2', List.drop_append_of_le_length (by omega), durs_append, durs_one]
              simp
          · rw [if_neg hl] at he
            exact hnode _ he
    · rw [if_neg hc] at he
      exact hnode _ he

/-- The iterator at the last segment. -/
theorem iterLast_spec {mono : Bool} {s : SL} (h : Inv mono s) {H : List Seg} {g : Seg} (hg : segs s = H ++ [g]) :
    ∃ it, iterLast s = .ok it ∧ it.Ok s ∧ ahead s it = [g.dur] := by
  unfold iterLast
  rcases snoc_cases s.nodes with e | ⟨l, n, e⟩
  · unfold segs at hg; rw [e] at hg; simp at hg
  · have ho := h.ok n (by rw [e]; simp)
    rcases snoc_cases n.elts with e2 | ⟨es, x, e2⟩
    · exact absurd e2 ho.ne
    · have hp := ho.pos x (by rw [e2]; simp)
      have h1 : s.nodes[s.nodes.length - 1]? = some n := by rw [e]; simp
      have h2 : n.elts[n.elts.length - 1]? = some x := by rw [e2]; simp
      rw [show s.nodes.getLast? = some n by rw [e]; simp]
      dsimp only
      rw [show n.elts.getLast? = some x by rw [e2]; simp]
      refine ⟨_, rfl, ⟨n, x, h1, h2, by dsimp only; omega⟩, ?_⟩
      rw [ahead_eq (it := ⟨s.nodes.length - 1, n.elts.length - 1, x.count - 1⟩) h1 h2]
      dsimp only
      rw [List.drop_eq_nil_of_le (by omega), List.drop_eq_nil_of_le (by omega), show x.count - (x.count - 1) = 1 by omega]
      have hx : durs n.elts = durs es ++ List.replicate (x.count - 1) x.dur ++ [x.dur] := by
        rw [e2, durs_append, durs_one, show x.count = (x.count - 1) + 1 by omega, List.replicate_succ']
        simp
      have hgd : g.dur = x.dur := by
        have h3 : ((segs s).map (·.dur)).getLast? = some g.dur := by rw [hg]; simp
        unfold segs at h3
        rw [flat_durs, e, List.flatMap_append, List.flatMap_singleton, hx] at h3
        simpa using h3.symm
      rw [hgd]
      rfl

/-- What a run that grows by one does to a place in the elements. -/
theorem grow_elts {es fs : List Elt} {p : Elt} (h : es = fs ++ [p]) {i off : Nat} {e0 : Elt} (he : es[i]? = some e0) (ho : off ≤ e0.count) :
    ∃ e1, (fs ++ [{ p with count := p.count + 1 }])[i]? = some e1 ∧ off ≤ e1.count ∧
      List.replicate (e1.count - off) e1.dur ++ durs ((fs ++ [{ p with count := p.count + 1 }]).drop (i + 1)) =
        List.replicate (e0.count - off) e0.dur ++ durs (es.drop (i + 1)) ++ [p.dur] := by
  have hll := (List.getElem?_eq_some_iff.1 he).1
  by_cases hel : i < fs.length
  · refine ⟨e0, ?_, ho, ?_⟩
    · rw [h, List.getElem?_append_left hel] at he
      rw [List.getElem?_append_left hel]; exact he
    · rw [h, List.drop_append_of_le_length (by omega), List.drop_append_of_le_length (by omega), durs_succ]
      simp
  · have hie : i = fs.length := by rw [h] at hll; simp at hll; omega
    have he0 : e0 = p := by rw [h, hie] at he; simpa using he.symm
    subst he0
    refine ⟨{ e0 with count := e0.count + 1 }, by rw [hie]; simp, by dsimp only; omega, ?_⟩
    dsimp only
    rw [h, List.drop_eq_nil_of_le (by simp; omega), List.drop_eq_nil_of_le (by simp; omega),
      show e0.count + 1 - off = (e0.count - off) + 1 by omega, List.replicate_succ']
    simp [durs]

/-- The update of the last segment is seen by every iterator that is not at that segment. -/
theorem update_iter {s s' : SL} {dur : Nat} (he : updateLast s dur = .ok s') {it : Iter} (ho : it.Ok s) (hlen : 2 ≤ (ahead s it).length) :
    it.Ok s' ∧ ahead s' it = (ahead s it).dropLast ++ [dur] := by
  obtain ⟨n0, e0, h1, h2, h3⟩ := ho
  unfold updateLast at he
  cases hn : s.nodes.getLast? with
  | none => rw [hn] at he; exact nomatch he
  | some n =>
    rw [hn] at he
    dsimp only at he
    obtain ⟨l, el⟩ := getLast_concat hn
    cases hg : n.elts.getLast? with
    | none => rw [hg] at he; exact nomatch he
    | some e =>
      rw [hg] at he
      dsimp only at he
      obtain ⟨es, ee⟩ := getLast_concat hg
      by_cases hc : e.count = 1
      · by_cases hz : e.dur = pending
        · rw [if_neg (by simpa using hc), if_neg (by simpa using hz)] at he
          have hed : durs [e] = [0] := by rw [durs_one, hc, hz]; rfl
          have hll := (List.getElem?_eq_some_iff.1 h1).1
          have hel := (List.getElem?_eq_some_iff.1 h2).1
          -- the iterator is not at the last element
          have hpos : it.node < l.length ∨ (it.node = l.length ∧ n0 = n ∧ it.elt < es.length) := by
            by_cases hlt : it.node < l.length
            · exact .inl hlt
            · have hnd : it.node = l.length := by rw [el] at hll; simp at hll; omega
              have hn0 : n0 = n := by rw [el, hnd] at h1; simpa using h1.symm
              refine .inr ⟨hnd, hn0, Nat.lt_of_not_le fun hge => ?_⟩
              subst hn0
              have hie : it.elt = es.length := by rw [ee] at hel; simp at hel; omega
              have he0 : e0 = e := by rw [ee, hie] at h2; simpa using h2.symm
              rw [ahead_eq h1 h2, List.drop_eq_nil_of_le (by rw [ee]; simp; omega), List.drop_eq_nil_of_le (by rw [el]; simp; omega), he0, hc] at hlen
              simp [durs] at hlen
              omega
          -- a change of the elements of the last node
          have hkey : ∀ es', (∀ i off f, es[i]? = some f → off ≤ f.count → ∃ f', es'[i]? = some f' ∧ off ≤ f'.count ∧
                List.replicate (f'.count - off) f'.dur ++ durs (es'.drop (i + 1)) =
                  List.replicate (f.count - off) f.dur ++ durs (es.drop (i + 1)) ++ [dur]) →
              durs es' = durs es ++ [dur] → s'.nodes = l ++ [{ n with elts := es' }] →
              it.Ok s' ∧ ahead s' it = (ahead s it).dropLast ++ [dur] := by
            intro es' hes hdur hs'
            rcases hpos with hlt | ⟨hnd, hn0, hlt⟩
            · have h1' : s'.nodes[it.node]? = some n0 := by
                rw [el, List.getElem?_append_left hlt] at h1
                rw [hs', List.getElem?_append_left hlt]; exact h1
              refine ⟨⟨n0, e0, h1', h2, h3⟩, ?_⟩
              rw [ahead_eq h1 h2, ahead_eq h1' h2, hs', el, List.drop_append_of_le_length (by omega), List.drop_append_of_le_length (by omega)]
              simp only [List.flatMap_append, List.flatMap_singleton, hdur, ee, durs_append, hed, ← List.append_assoc]
              rw [List.dropLast_concat]
            · subst hn0
              have h2a : es[it.elt]? = some e0 := by
                rw [ee, List.getElem?_append_left hlt] at h2; exact h2
              obtain ⟨f', f1, f2, f3⟩ := hes _ _ _ h2a h3
              have h1' : s'.nodes[it.node]? = some { n0 with elts := es' } := by rw [hs', hnd]; simp
              refine ⟨⟨_, f', h1', f1, f2⟩, ?_⟩
              rw [ahead_eq h1 h2, ahead_eq h1' f1]
              dsimp only
              have d1 : s'.nodes.drop (it.node + 1) = [] := List.drop_eq_nil_of_le (by rw [hs']; simp; omega)
              have d2 : s.nodes.drop (it.node + 1) = [] := List.drop_eq_nil_of_le (by rw [el]; simp; omega)
              rw [f3, d1, d2, ee, List.drop_append_of_le_length (by omega), durs_append, hed]
              simp only [List.flatMap_nil, List.append_nil, ← List.append_assoc]
              rw [List.dropLast_concat]
          have hi : ∀ {a : Int → Res SL}, (i64 (s.lastTime + dur) >>= a) = .ok s' → ∃ t, a t = .ok s' := by
            intro a ha
            cases hi : i64 (s.lastTime + dur) with
            | ok v => rw [hi] at ha; exact ⟨v, ha⟩
            | err => rw [hi] at ha; exact nomatch ha
            | ub => rw [hi] at ha; exact nomatch ha
          obtain ⟨t, he⟩ := hi he
          have hnew : s' = { s with nodes := setLast s.nodes { n with elts := setLast n.elts { e with dur := dur } }, lastTime := t } →
              it.Ok s' ∧ ahead s' it = (ahead s it).dropLast ++ [dur] := by
            intro e1
            have hd1 : durs [{ e with dur := dur }] = [dur] := by rw [durs_one]; dsimp only; rw [hc]; rfl
            refine hkey (es ++ [{ e with dur := dur }]) ?_ (by rw [durs_append, hd1]) (by rw [e1]; dsimp only; rw [el, ee, setLast_concat, setLast_concat])
            intro i off f hf hof
            have hlt := (List.getElem?_eq_some_iff.1 hf).1
            refine ⟨f, by rw [List.getElem?_append_left hlt]; exact hf, hof, ?_⟩
            rw [List.drop_append_of_le_length (by omega), durs_append, hd1, List.append_assoc]
          cases hp : n.elts.dropLast.getLast? with
          | some p =>
            rw [hp] at he
            dsimp only at he
            by_cases hpd : p.dur = dur
            · rw [if_neg (by simpa using hpd)] at he
              injection he with he
              rw [ee, List.dropLast_concat] at hp
              obtain ⟨fs, ef⟩ := getLast_concat hp
              refine hkey (fs ++ [{ p with count := p.count + 1 }]) ?_ (by rw [durs_succ, ef, hpd]) (by
                rw [← he]; dsimp only; rw [el, ee, List.dropLast_concat, ef, setLast_concat, setLast_concat])
              intro i off f hf hof
              obtain ⟨f', g1, g2, g3⟩ := grow_elts ef hf hof
              exact ⟨f', g1, g2, by rw [g3, hpd]⟩
            · rw [if_pos hpd] at he
              injection he with he
              exact hnew he.symm
          | none =>
            rw [hp] at he
            dsimp only at he
            cases hm : s.nodes.dropLast.getLast? with
            | none =>
              rw [hm] at he
              injection he with he
              exact hnew he.symm
            | some m =>
              rw [hm] at he
              dsimp only at he
              cases hq : m.elts.getLast? with
              | none => rw [hq] at he; exact nomatch he
              | some p =>
                rw [hq] at he
                dsimp only at he
                by_cases hcc : m.period ≠ n.period ∨ p.dur ≠ dur
                · rw [if_pos hcc] at he
                  injection he with he
                  exact hnew he.symm
                · rw [if_neg hcc] at he
                  injection he with he
                  have hpd : p.dur = dur := Decidable.byContradiction fun e => hcc (.inr e)
                  rw [el, List.dropLast_concat] at hm
                  obtain ⟨l', el'⟩ := getLast_concat hm
                  obtain ⟨fs, ef⟩ := getLast_concat hq
                  have hes0 : es = [] := by
                    rw [ee, List.dropLast_concat] at hp
                    exact List.getLast?_eq_none_iff.1 hp
                  have hnd : durs n.elts = [0] := by rw [ee, hes0]; exact hed
                  have hs' : s'.nodes = l' ++ [{ m with elts := fs ++ [{ p with count := p.count + 1 }], last := n.last }] := by
                    rw [← he]; dsimp only; rw [el, List.dropLast_concat, el', setLast_concat, ef, setLast_concat]
                  rcases hpos with hlt | ⟨_, _, hlt⟩
                  · by_cases hlt2 : it.node < l'.length
                    · have h1' : s'.nodes[it.node]? = some n0 := by
                        rw [el, el', List.append_assoc, List.getElem?_append_left hlt2] at h1
                        rw [hs', List.getElem?_append_left hlt2]; exact h1
                      refine ⟨⟨n0, e0, h1', h2, h3⟩, ?_⟩
                      have d1 : s'.nodes.drop (it.node + 1) = l'.drop (it.node + 1) ++ [{ m with elts := fs ++ [{ p with count := p.count + 1 }], last := n.last }] := by
                        rw [hs', List.drop_append_of_le_length (by omega)]
                      have d2 : s.nodes.drop (it.node + 1) = l'.drop (it.node + 1) ++ [m, n] := by
                        rw [el, el', List.append_assoc, List.drop_append_of_le_length (by omega)]; rfl
                      rw [ahead_eq h1 h2, ahead_eq h1' h2, d1, d2]
                      simp only [List.flatMap_append, List.flatMap_cons, List.flatMap_nil, List.append_nil, hnd]
                      rw [durs_succ, ← ef, hpd]
                      simp only [← List.append_assoc]
                      rw [List.dropLast_concat]
                    · have hnd2 : it.node = l'.length := by rw [el'] at hlt; simp at hlt; omega
                      have hn0 : n0 = m := by rw [el, el', hnd2] at h1; simpa using h1.symm
                      subst hn0
                      obtain ⟨f', f1, f2, f3⟩ := grow_elts ef h2 h3
                      have h1' : s'.nodes[it.node]? = some { n0 with elts := fs ++ [{ p with count := p.count + 1 }], last := n.last } := by
                        rw [hs', hnd2]; simp
                      refine ⟨⟨_, f', h1', f1, f2⟩, ?_⟩
                      rw [ahead_eq h1 h2, ahead_eq h1' f1]
                      dsimp only
                      have d1 : s'.nodes.drop (it.node + 1) = [] := List.drop_eq_nil_of_le (by rw [hs']; simp; omega)
                      have d2 : s.nodes.drop (it.node + 1) = [n] := by
                        rw [el, el', hnd2, List.drop_append_of_le_length (by simp), List.drop_eq_nil_of_le (by simp), List.nil_append]
                      rw [f3, d1, d2, hpd]
                      simp only [List.flatMap_nil, List.append_nil, List.flatMap_singleton, hnd]
                      rw [List.dropLast_concat]
                  · rw [hes0] at hlt; simp at hlt
        · rw [if_neg (by simpa using hc), if_pos hz] at he
          exact nomatch he
      · rw [if_pos hc] at he
        exact nomatch he

/-- The nodes that are freed, and what follows each of them. -/
theorem freeLoop_pre (min : Nat) : ∀ (ns : List Node) (s : SL), ∃ pre, ns = pre ++ (freeLoop min ns s).nodes ∧
    ∀ i, i < pre.length → ∃ m, ns[i + 1]? = some m ∧ m.key < min
  | [], _ => ⟨[], rfl, fun _ h => absurd h (Nat.not_lt_zero _)⟩
  | [n], _ => ⟨[], rfl, fun _ h => absurd h (Nat.not_lt_zero _)⟩
  | n :: m :: l, s => by
    unfold freeLoop
    by_cases hc : min ≤ m.key
    · rw [if_pos hc]
      exact ⟨[], rfl, fun _ h => absurd h (Nat.not_lt_zero _)⟩
    · rw [if_neg hc]
      obtain ⟨pre, h1, h2⟩ := freeLoop_pre min (m :: l) { s with nodeCount := s.nodeCount - 1, eltCount := s.eltCount - n.elts.length, segCount := s.segCount - (n.last + 1 - n.key) }
      refine ⟨n :: pre, by rw [List.cons_append, ← h1], fun i hi => ?_⟩
      cases i with
      | zero => exact ⟨m, rfl, by omega⟩
      | succ i => exact h2 i (by simpa using hi)

/-- An iterator at a segment that is kept is not in a node that is freed. -/
theorem free_iter {mono : Bool} {s : SL} (h : Inv mono s) {min : Nat} {it : Iter} (ho : it.Ok s) {A D : List Seg}
    (hs : segs s = A ++ D) (ha : ahead s it = D.map (·.dur)) (hmin : ∀ g ∈ D, min ≤ g.idx) :
    s.nodes.length - (freeNodes s min).nodes.length ≤ it.node ∧
      ({ it with node := it.node - (s.nodes.length - (freeNodes s min).nodes.length) } : Iter).Ok (freeNodes s min) ∧
      ahead (freeNodes s min) { it with node := it.node - (s.nodes.length - (freeNodes s min).nodes.length) } = D.map (·.dur) := by
  obtain ⟨pre, h1, h2⟩ := freeLoop_pre min s.nodes s
  have hk : s.nodes.length - (freeNodes s min).nodes.length = pre.length := by
    have : s.nodes.length = pre.length + (freeNodes s min).nodes.length := by
      rw [← List.length_append]; exact congrArg List.length h1
    omega
  rw [hk]
  have hle : pre.length ≤ it.node := by
    refine Nat.le_of_not_lt fun hlt => ?_
    obtain ⟨m, m1, m2⟩ := h2 it.node hlt
    obtain ⟨n, e, n1, n2, n3⟩ := ho
    have hlen : (ahead s it).length = D.length := by rw [ha]; simp
    rw [ahead_eq n1 n2] at hlen
    have hsp : segs s = (s.nodes.take (it.node + 1)).flatMap Node.segs ++ (s.nodes.drop (it.node + 1)).flatMap Node.segs := by
      unfold segs
      rw [← List.flatMap_append, List.take_append_drop]
    have hl2 : ((s.nodes.drop (it.node + 1)).flatMap Node.segs).length ≤ D.length := by
      have : ((s.nodes.drop (it.node + 1)).flatMap Node.segs).length = ((s.nodes.drop (it.node + 1)).flatMap (fun m => durs m.elts)).length := by
        rw [← flat_durs]; simp
      rw [this, ← hlen, List.length_append]
      omega
    have hsuf : ∀ g ∈ (s.nodes.drop (it.node + 1)).flatMap Node.segs, g ∈ D := by
      intro g hg
      have h3 : (s.nodes.drop (it.node + 1)).flatMap Node.segs <:+ segs s := ⟨_, hsp.symm⟩
      have h4 : D <:+ segs s := ⟨_, hs.symm⟩
      exact (List.suffix_of_suffix_length_le h3 h4 hl2).subset hg
    have hmo := h.ok m (List.mem_of_getElem? m1)
    have hm : ∃ d, ⟨m.key, m.time, d⟩ ∈ m.segs := by
      unfold Node.segs
      generalize hd : durs m.elts = ds
      have := durs_pos hmo.ne hmo.pos
      rw [hd] at this
      cases ds with
      | nil => simp at this
      | cons d ds => exact ⟨d, by simp [seq]⟩
    obtain ⟨d, hm⟩ := hm
    have := hmin _ (hsuf _ (List.mem_flatMap.2 ⟨m, by rw [drop_of_get m1]; simp, hm⟩))
    dsimp only at this
    omega
  have hit : it = { it with node := pre.length + (it.node - pre.length) } := by
    obtain ⟨a, b, c⟩ := it
    dsimp only at hle ⊢
    rw [Nat.add_sub_cancel' hle]
  refine ⟨hle, (ok_shift h1 { it with node := it.node - pre.length }).1 (by rw [hit] at ho; exact ho), ?_⟩
  rw [← ha]
  exact (ahead_shift (s' := freeNodes s min) h1 { it with node := it.node - pre.length }).symm.trans (congrArg _ hit.symm)

end Verif.SegmentList
