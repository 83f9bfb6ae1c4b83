import Verif.SegmentListFind

/-!
# Segment list: search by time
-/

namespace Verif.SegmentList

theorem findTime_spec {ns : List Node} {x : Int} :
    ∀ (t : Tree) (lo len : Nat), t ≠ .leaf → t.walk = List.range' lo len → lo + len ≤ ns.length →
    (∀ b, ns[lo + len]? = some b → x < b.time) → (∀ a, 0 < lo → ns[lo - 1]? = some a → a.time ≤ x) →
    (∃ i n, findTime ns x t = .ok i ∧ ns[i]? = some n ∧ n.time ≤ x ∧ ∀ m, ns[i + 1]? = some m → x < m.time) ∨
    (findTime ns x t = .err ∧ ∀ m, ns[0]? = some m → x < m.time)
  | .leaf, _, _, h, _, _, _, _ => absurd rfl h
  | .node l i r, lo, len, _, hw, hlen, hhi, hlo => by
    obtain ⟨a, b, e1, e2, e3, e4⟩ := walk_split hw
    have hi : i < ns.length := by omega
    have hn : ns[i]? = some ns[i] := List.getElem?_eq_getElem hi
    generalize ns[i] = n at hn
    unfold findTime
    rw [hn]
    dsimp only
    by_cases h1 : x < n.time
    · rw [if_pos h1]
      cases l with
      | leaf =>
        have ha : a = 0 := by
          have := congrArg List.length e1
          simp [Tree.walk] at this
          omega
        dsimp only
        by_cases h2 : i = 0
        · rw [if_pos h2]
          right
          refine ⟨rfl, fun m hm => ?_⟩
          rw [← h2, hn] at hm; injection hm with hm; rw [← hm]; exact h1
        · rw [if_neg h2]
          left
          have hp : ns[i - 1]? = some ns[i - 1] := List.getElem?_eq_getElem (by omega)
          refine ⟨i - 1, _, rfl, hp, hlo _ (by omega) (by rw [show lo - 1 = i - 1 by omega]; exact hp), fun m hm => ?_⟩
          rw [show i - 1 + 1 = i by omega, hn] at hm; injection hm with hm; rw [← hm]; exact h1
      | node l' i' r' =>
        exact findTime_spec (.node l' i' r') lo a (by simp) e1 (by omega) (fun u hu => by
          rw [← e2, hn] at hu; injection hu with hu; rw [← hu]; exact h1) hlo
    · rw [if_neg h1]
      cases r with
      | leaf =>
        have hb : b = 0 := by
          have := congrArg List.length e3
          simp [Tree.walk] at this
          omega
        left
        exact ⟨i, n, rfl, hn, by omega, fun m hm => hhi m (by rw [show lo + len = i + 1 by omega]; exact hm)⟩
      | node l' i' r' =>
        exact findTime_spec (.node l' i' r') (lo + a + 1) b (by simp) e3 (by omega) (fun u hu => hhi u (by
          rw [show lo + len = lo + a + 1 + b by omega]; exact hu)) (fun u _ hu => by
            rw [show lo + a + 1 - 1 = i by omega, hn] at hu; injection hu with hu; rw [← hu]; omega)

/-- How far the closest mode goes on from the segment that has the time: to the next one when that is nearer. -/
def up (closest : Bool) (d dur : Nat) : Nat := if closest ∧ dur ≤ d % dur + dur / 2 then 1 else 0

theorem div_up {closest : Bool} {d dur : Nat} (h : 0 < dur) :
    (if closest then d + dur / 2 else d) / dur = d / dur + up closest d dur := by
  unfold up
  have h1 := Nat.div_add_mod d dur
  have h2 := Nat.mod_lt d h
  have h3 : dur / 2 < dur := Nat.div_lt_self h (by omega)
  cases closest with
  | false => simp
  | true =>
    simp only [if_true, true_and]
    have e : d + dur / 2 = (d % dur + dur / 2) + dur * (d / dur) := by omega
    rw [e, Nat.add_mul_div_left _ _ h]
    by_cases hc : dur ≤ d % dur + dur / 2
    · rw [if_pos hc, Nat.div_eq_sub_div h hc, Nat.div_eq_of_lt (by omega)]; omega
    · rw [if_neg hc, Nat.div_eq_of_lt (by omega)]; omega

/-- The walk through the elements of a node. -/
theorem seek_spec (x : Int) (closest : Bool) : ∀ (es : List Elt) (k idx : Nat) (st : Int), -B ≤ st → st + ((durs es).sum : Nat) ≤ B →
    (∀ e ∈ es, e.dur < 2 ^ 32) → st ≤ x →
    (st + ((durs es).sum : Nat) ≤ x ∧ seek x closest es k idx st = .err) ∨
    ∃ p j off e q, x < st + ((durs es).sum : Nat) ∧ p < (durs es).length ∧ es[j]? = some e ∧ off < e.count ∧
      (durs es).drop p = List.replicate (e.count - off) e.dur ++ durs (es.drop (j + 1)) ∧
      x = st + (((durs es).take p).sum : Nat) + (q : Nat) ∧ q < e.dur ∧
      seek x closest es k idx st = .ok (k + j, off + up closest q e.dur, idx + p + up closest q e.dur,
        st + (((durs es).take p).sum : Nat) + (up closest q e.dur * e.dur : Nat))
  | [], _, _, st, _, _, _, hx => .inl ⟨by rw [durs_nil]; simpa using hx, rfl⟩
  | e :: es, k, idx, st, hlo, hhi, hsm, hx => by
    have hdur := hsm e (List.mem_cons_self ..)
    rw [durs_cons, List.sum_append, sum_replicate] at hhi
    have e1 : i64 ((e.count : Int) * (e.dur : Int)) = .ok ((e.count * e.dur : Nat) : Int) := by
      rw [← Int.natCast_mul]
      exact i64_ok (by unfold B; omega) (by omega)
    have e2 : i64 (st + ((e.count * e.dur : Nat) : Int)) = .ok (st + ((e.count * e.dur : Nat) : Int)) :=
      i64_ok (by unfold B at *; omega) (by unfold B at *; omega)
    have hl : (List.replicate e.count e.dur).length = e.count := List.length_replicate
    rw [durs_cons, List.sum_append, sum_replicate]
    unfold seek
    rw [e1, Res.bind_ok, e2, Res.bind_ok]
    by_cases hc : x ≥ st + ((e.count * e.dur : Nat) : Int)
    · rw [if_pos hc]
      rcases seek_spec x closest es (k + 1) (idx + e.count) (st + ((e.count * e.dur : Nat) : Int)) (by omega) (by omega)
        (fun e' he' => hsm e' (List.mem_cons_of_mem _ he')) hc with ⟨h1, h2⟩ | ⟨p, j, off, e', q, h1, h2, h3, h4, h5, h6, h7, h8⟩
      · exact .inl ⟨by omega, h2⟩
      · right
        refine ⟨e.count + p, j + 1, off, e', q, by omega, by rw [List.length_append, hl]; omega, h3, h4, ?_, ?_, h7, ?_⟩
        · rw [List.drop_append, hl, List.drop_of_length_le (by rw [hl]; omega), Nat.add_sub_cancel_left, h5]; rfl
        · rw [List.take_append, hl, List.take_of_length_le (l := List.replicate e.count e.dur) (by rw [hl]; omega),
            List.sum_append, sum_replicate, Nat.add_sub_cancel_left]
          omega
        · rw [h8, List.take_append, hl, List.take_of_length_le (l := List.replicate e.count e.dur) (by rw [hl]; omega),
            List.sum_append, sum_replicate, Nat.add_sub_cancel_left, show k + 1 + j = k + (j + 1) by omega,
            show idx + e.count + p = idx + (e.count + p) by omega, Int.natCast_add (e.count * e.dur), ← Int.add_assoc st]
    · rw [if_neg hc]
      right
      have hd0 : 0 < e.dur := by
        rcases Nat.eq_zero_or_pos e.dur with h0 | h0
        · rw [h0] at hc; simp at hc; omega
        · exact h0
      obtain ⟨d, hd⟩ : ∃ d : Nat, x = st + (d : Nat) := ⟨(x - st).toNat, by omega⟩
      have hdl : d < e.count * e.dur := by omega
      have hq := Nat.mod_lt d hd0
      have hdm := Nat.div_add_mod d e.dur
      have hp : d / e.dur < e.count := Nat.div_lt_of_lt_mul (by rw [Nat.mul_comm]; exact hdl)
      have ht : (List.replicate e.count e.dur ++ durs es).take (d / e.dur) = List.replicate (d / e.dur) e.dur := by
        rw [List.take_append_of_le_length (by rw [hl]; omega), List.take_replicate, Nat.min_eq_left (by omega)]
      have hmc : d / e.dur * e.dur = e.dur * (d / e.dur) := Nat.mul_comm _ _
      have hup : (if closest then d + e.dur / 2 else d) / e.dur = d / e.dur + up closest (d % e.dur) e.dur := by
        rw [div_up hd0]; unfold up; rw [Nat.mod_mod]
      refine ⟨d / e.dur, 0, d / e.dur, e, d % e.dur, by omega, by rw [List.length_append, hl]; omega, rfl, hp, ?_, ?_, hq, ?_⟩
      · rw [List.drop_append_of_le_length (by rw [hl]; omega), List.drop_replicate]; rfl
      · rw [ht, sum_replicate, hd]; omega
      · rw [ht, sum_replicate]
        have hh : e.dur / 2 ≤ e.dur := Nat.div_le_self ..
        have e3 : rounded x closest e.dur =
            Res.ok (st + ((if closest then d + e.dur / 2 else d : Nat) : Int)) := by
          unfold rounded
          cases closest with
          | false => simp [hd]
          | true =>
            simp only [if_true]
            rw [i64_ok (by unfold B at *; omega) (by unfold B at *; omega), hd, Int.natCast_add d, Int.add_assoc st]
        rw [e3, Res.bind_ok]
        have hle : (if closest then d + e.dur / 2 else d) ≤ d + e.dur / 2 := by split <;> omega
        have e4 : i64 (st + ((if closest then d + e.dur / 2 else d : Nat) : Int) - st) =
            .ok ((if closest then d + e.dur / 2 else d : Nat) : Int) := by
          rw [show st + ((if closest then d + e.dur / 2 else d : Nat) : Int) - st = ((if closest then d + e.dur / 2 else d : Nat) : Int) by omega]
          exact i64_ok' (by unfold B; omega) (by unfold B at *; omega)
        rw [e4, Res.bind_ok, if_neg (by omega)]
        have e5 : (((if closest then d + e.dur / 2 else d : Nat) : Int) / (e.dur : Int)).toNat = d / e.dur + up closest (d % e.dur) e.dur := by
          rw [← Int.natCast_ediv, Int.toNat_natCast, hup]
        dsimp only
        rw [e5]
        have hu : up closest (d % e.dur) e.dur ≤ 1 := by unfold up; split <;> omega
        have hm : (d / e.dur + up closest (d % e.dur) e.dur) * e.dur = d / e.dur * e.dur + up closest (d % e.dur) e.dur * e.dur := Nat.add_mul ..
        have hule : up closest (d % e.dur) e.dur * e.dur ≤ 1 * e.dur := Nat.mul_le_mul_right _ hu
        rw [← Int.natCast_mul, hm, i64_ok' (by unfold B; omega) (by unfold B at *; omega), Res.bind_ok,
          i64_ok (by unfold B at *; omega) (by unfold B at *; omega), Res.bind_ok, Int.natCast_add (d / e.dur * e.dur),
          ← Int.add_assoc st, ← Nat.add_assoc idx]
        rfl

theorem findTime_all {s : SL} {t : Tree} (ht : TreeOf s t) (hne : t ≠ .leaf) (x : Int) :
    (∃ i n, findTime s.nodes x t = .ok i ∧ s.nodes[i]? = some n ∧ n.time ≤ x ∧ ∀ m, s.nodes[i + 1]? = some m → x < m.time) ∨
    (findTime s.nodes x t = .err ∧ ∀ m, s.nodes[0]? = some m → x < m.time) := by
  refine findTime_spec t 0 s.nodes.length hne
    (by rw [← List.range_eq_range']; exact ht) (by omega) (fun b hb => ?_) (fun a hi => absurd hi (Nat.not_lt_zero _))
  rw [List.getElem?_eq_none (by omega)] at hb
  exact nomatch hb

/-- A time: either it is in a segment and this is found, or it is in none. -/
theorem getSegmentIndex_spec {s : SL} (h : Inv true s) {t : Tree} (ht : TreeOf s t) (x : Int) (closest : Bool) :
    (getSegmentIndex s t x closest = .err ∧ ∀ g ∈ segs s, ¬ (g.time ≤ x ∧ x < g.time + (g.dur : Nat))) ∨
    ∃ a g c q it, segs s = a ++ g :: c ∧ x = g.time + (q : Nat) ∧ q < g.dur ∧ (it.Ok s ∧ ahead s it = (g :: c).map (·.dur)) ∧
      (({ it with off := it.off + 1 } : Iter).Ok s ∧ ahead s { it with off := it.off + 1 } = c.map (·.dur)) ∧
      getSegmentIndex s t x closest = .ok (g.idx + up closest q g.dur, g.time + (up closest q g.dur * g.dur : Nat),
        { it with off := it.off + up closest q g.dur }) ∧ ∃ n, s.nodes[it.node]? = some n ∧ g ∈ n.segs := by
  by_cases htl : t = .leaf
  · left
    subst htl
    refine ⟨rfl, fun g hg => ?_⟩
    have := (tree_leaf ht).1 rfl
    unfold segs at hg; rw [this] at hg; exact absurd hg List.not_mem_nil
  have hgs : getSegmentIndex s t x closest = (do
      let i ← findTime s.nodes x t
      match s.nodes[i]? with
      | none => .ub
      | some n => do
        let (e, off, idx, st) ← seek x closest n.elts 0 n.key n.time
        .ok (idx, st, ⟨i, e, off⟩)) := by
    unfold getSegmentIndex
    cases t with
    | leaf => exact absurd rfl htl
    | node l i r => rfl
  have htime := Link.trans_time h.link
  have hlt : ∀ (j k : Nat) (u v : Node), j < k → s.nodes[j]? = some u → s.nodes[k]? = some v → u.fin ≤ v.time := by
    intro j k u v hjk hu hv
    obtain ⟨hj, rfl⟩ := List.getElem?_eq_some_iff.1 hu
    obtain ⟨hk', rfl⟩ := List.getElem?_eq_some_iff.1 hv
    exact List.pairwise_iff_getElem.1 htime j k hj hk' hjk
  have hfin : ∀ n : Node, n.time ≤ n.fin := fun n => by unfold Node.fin; omega
  rcases findTime_all ht htl x with ⟨i, n, f1, f2, f3, f4⟩ | ⟨f1, f2⟩
  · have hno := h.ok n (List.mem_of_getElem? f2)
    rw [hgs, f1, Res.bind_ok, f2]
    dsimp only
    rcases seek_spec x closest n.elts 0 n.key n.time hno.lo hno.hi hno.small f3 with ⟨g1, g2⟩ |
      ⟨p, j, off, e, q, g1, g2, g3, g4, g5, g6, g7, g8⟩
    · left
      refine ⟨by rw [g2]; rfl, fun g hg hx => ?_⟩
      obtain ⟨m, hm, hgm⟩ := List.mem_flatMap.1 hg
      have h5 := seq_mem _ _ _ g hgm
      obtain ⟨k, hk, em⟩ := List.getElem_of_mem hm
      have hk' : s.nodes[k]? = some m := by rw [← em]; exact List.getElem?_eq_getElem hk
      have h6 : m.fin = m.time + ((durs m.elts).sum : Nat) := rfl
      rcases Nat.lt_trichotomy k i with hl | hl | hl
      · have := hlt k i m n hl hk' f2; omega
      · rw [hl, f2] at hk'; injection hk' with hk'; subst hk'; omega
      · by_cases hk1 : k = i + 1
        · subst hk1; have := f4 m hk'; omega
        · have hz : s.nodes[i + 1]? = some s.nodes[i + 1] := List.getElem?_eq_getElem (by omega)
          have := f4 _ hz
          have := hlt (i + 1) k _ m (by omega) hz hk'
          have := hfin s.nodes[i + 1]
          omega
    · right
      obtain ⟨d, d1, d2⟩ := node_at g2
      have hs := segs_split f2
      rw [d2, List.append_assoc, List.cons_append, ← List.append_assoc] at hs
      have hd : d = e.dur := by
        rw [d1, show e.count - off = (e.count - off - 1) + 1 by omega, List.replicate_succ, List.cons_append] at g5
        injection g5
      refine ⟨_, _, _, q, ⟨i, j, off⟩, hs, g6, by rw [hd]; exact g7, ⟨⟨n, e, f2, g3, Nat.le_of_lt g4⟩, ?_⟩,
        ⟨⟨n, e, f2, g3, g4⟩, ?_⟩, ?_, n, f2, by rw [d2]; simp⟩
      · rw [ahead_eq (it := ⟨i, j, off⟩) f2 g3, List.map_cons, List.map_append, flat_durs, seq_durs]
        dsimp only
        rw [← g5, d1]; rfl
      · rw [ahead_eq (it := ⟨i, j, off + 1⟩) f2 g3, List.map_append, flat_durs, seq_durs]
        dsimp only
        rw [d1, show e.count - off = (e.count - (off + 1)) + 1 by omega, List.replicate_succ, List.cons_append] at g5
        injection g5 with _ g5
        rw [← g5]
      · rw [g8, Res.bind_ok, Nat.zero_add, hd]
  · left
    rw [hgs, f1]
    refine ⟨rfl, fun g hg hx => ?_⟩
    obtain ⟨m, hm, hgm⟩ := List.mem_flatMap.1 hg
    have h5 := seq_mem _ _ _ g hgm
    obtain ⟨k, hk, em⟩ := List.getElem_of_mem hm
    have hk' : s.nodes[k]? = some m := by rw [← em]; exact List.getElem?_eq_getElem hk
    have hz : s.nodes[0]? = some s.nodes[0] := List.getElem?_eq_getElem (by omega)
    have := f2 _ hz
    rcases Nat.eq_zero_or_pos k with h0 | h0
    · rw [h0, hz] at hk'; injection hk' with hk'; rw [← hk'] at h5; omega
    · have := hlt 0 k _ m h0 hz hk'
      have := hfin s.nodes[0]
      omega

/-- Times do not go back, so a time is in at most one segment. -/
theorem segs_times {s : SL} (h : Inv true s) : (segs s).Pairwise (fun g k : Seg => g.time + ((g.dur : Nat) : Int) ≤ k.time) := by
  have hseq : ∀ (a : List Nat) (i : Nat) (t : Int), (seq i t a).Pairwise (fun g k : Seg => g.time + ((g.dur : Nat) : Int) ≤ k.time) := by
    intro a
    induction a with
    | nil => intro i t; exact .nil
    | cons d a ih =>
      intro i t
      exact List.pairwise_cons.2 ⟨fun g hg => (seq_mem a _ _ g hg).2.2.1, ih _ _⟩
  unfold segs
  rw [List.pairwise_flatMap]
  refine ⟨fun n _ => hseq .., ?_⟩
  refine List.Pairwise.imp ?_ (Link.trans_time h.link)
  intro n m hle g hg k hk
  have h1 := seq_mem _ _ _ g hg
  have h2 := seq_mem _ _ _ k hk
  unfold Node.fin at hle
  omega

end Verif.SegmentList
