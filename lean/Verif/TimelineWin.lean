import Verif.TimelineMove

/-!
# Timelines: which segments are kept
-/

namespace Verif.Timeline

open Verif.SegmentList (SL Iter Seg Inv seq segs ahead AddOk sub32 add32)

/-! ## The rule -/

/-- Drops segments from the front until a list may be kept. -/
def trim (keep : List Seg → Bool) : List Seg → List Seg
  | [] => []
  | g :: l => if keep (g :: l) then g :: l else trim keep l

def total (w : List Seg) : Nat := (w.map (·.dur)).sum

def headDur : List Seg → Nat
  | [] => 0
  | g :: _ => g.dur

/-- A playlist may be kept when it is in both limits, or when it is live and the removal of its first segment would leave less than
three target durations. `bc` and `bd` are added to the number of segments and to the duration. -/
def keepMan (c : MConf) (target bc bd : Nat) (w : List Seg) : Bool :=
  (decide (w.length + bc ≤ c.maxSegs) && decide (total w + bd ≤ c.maxDur)) || (decide (c.endList = 0) && decide (total w < 3 * target + headDur w))

/-- The segments of a timeline may be kept when they are all in its playlist, or when they are in both limits. -/
def keepTl (c : Conf) (shown bc bd : Nat) (w : List Seg) : Bool :=
  decide (w.length ≤ shown) || (decide (w.length + bc ≤ c.maxSegs) && decide (total w + bd ≤ c.maxDur))

theorem trim_suffix (keep : List Seg → Bool) : ∀ (w : List Seg), ∃ k, trim keep w = w.drop k
  | [] => ⟨0, rfl⟩
  | g :: l => by
    rw [trim]
    split
    · exact ⟨0, rfl⟩
    · obtain ⟨k, e⟩ := trim_suffix keep l
      exact ⟨k + 1, by rw [e]; rfl⟩

/-! ## Lists of segments -/

/-- The segments of the list with some indexes. -/
structure Lists (q : Segs) (is : List Nat) (w : List Seg) : Prop where
  idx : w.map (·.idx) = is
  mem : ∀ g ∈ w, g ∈ segs q.sl

theorem Lists.unique {mono : Bool} {q : Segs} (h : Inv mono q.sl) : ∀ {w v : List Seg} {is : List Nat}, Lists q is w → Lists q is v → w = v
  | [], v, is, ⟨h1, _⟩, ⟨h2, _⟩ => by
    subst h1
    exact (List.map_eq_nil_iff.1 h2).symm
  | g :: w, v, is, ⟨h1, m1⟩, ⟨h2, m2⟩ => by
    cases v with
    | nil => rw [← h1] at h2; exact nomatch h2
    | cons k v =>
      rw [← h1] at h2
      injection h2 with e1 e2
      rw [seg_unique h (m1 g (by simp)) (m2 k (by simp)) e1.symm,
        Lists.unique h (w := w) (v := v) ⟨rfl, fun x hx => m1 x (by simp [hx])⟩ ⟨e2, fun x hx => m2 x (by simp [hx])⟩]

theorem Lists.tail {q : Segs} {is : List Nat} {w : List Seg} (h : Lists q is w) : Lists q is.tail w.tail :=
  ⟨by rw [List.map_tail, h.idx], fun g hg => h.mem g (List.mem_of_mem_tail hg)⟩

theorem seq_total : ∀ (ds : List Nat) (i : Nat) (t : Int), total (seq i t ds) = ds.sum
  | [], _, _ => rfl
  | d :: ds, i, t => by
    show d + total (seq (i + 1) (t + (d : Nat)) ds) = _
    rw [seq_total, List.sum_cons]

theorem PerOk.lists {q : Segs} {p : Per} {ds : List Nat} (h : PerOk q p ds) : Lists q (List.range' p.key p.count) (seq p.key p.time ds) :=
  ⟨by rw [seq_idx, h.count], fun g hg => by
    have := seq_take_mem (n := ds.length) (g := g) h
    rw [List.take_length] at this
    exact this hg⟩

theorem total_append (a b : List Seg) : total (a ++ b) = total a + total b := by unfold total; simp

theorem lists_of {q : Segs} : ∀ {ps : List Per}, (∀ p ∈ ps, Good q p) → ∃ w, Lists q (ids ps) w ∧ w.length = counts ps ∧ total w = durs ps
  | [], _ => ⟨[], ⟨rfl, by simp⟩, rfl, rfl⟩
  | p :: ps, h => by
    obtain ⟨ds, hp⟩ := h p (by simp)
    obtain ⟨w, h1, h2, h3⟩ := lists_of (ps := ps) (fun r hr => h r (by simp [hr]))
    have hl := hp.lists
    refine ⟨seq p.key p.time ds ++ w, ⟨?_, fun g hg => ?_⟩, ?_, ?_⟩
    · rw [List.map_append, hl.idx, h1.idx, ids_cons]
    · rcases List.mem_append.1 hg with hg | hg
      · exact hl.mem g hg
      · exact h1.mem g hg
    · rw [List.length_append, SegmentList.seq_length, h2, counts_cons, hp.count]
    · rw [total_append, seq_total, h3, durs_cons, hp.dur]

theorem rowsFrom_fst : ∀ (d : Nat) (ps : List Per), (rowsFrom d ps).map (·.1) = ids ps
  | _, [] => rfl
  | d, p :: ps => by
    rw [rowsFrom, List.map_append, rowsFrom_fst, ids_cons, List.map_map]
    congr 1
    exact List.map_id _

theorem rows_fst (ps : List Per) (m : Man) : (rows ps m).map (·.1) = ids (shown ps m) := rowsFrom_fst _ _

/-- The segments of a manifest. -/
theorem man_lists {mono : Bool} {q : Segs} (h : Inv mono q.sl) {ps : List Per} {m : Man} (hm : ManInv q ps m) (hc : 0 < m.segCount)
    (hg : ∀ p ∈ ps, Good q p) (hs : ps.Pairwise (fun p r => p.pid < r.pid)) {w : List Seg} (hw : Lists q (ids (shown ps m)) w) :
    w.length = m.segCount ∧ total w = m.dur ∧ ∃ it, q.peek m.first.it = .ok (headDur w, it) ∧ MCut q ps 0 m { m with first := { m.first with it } } := by
  obtain ⟨A, p, R, ds, hB⟩ := hm.begins hc
  obtain ⟨d, ds', it, e, h1, h2⟩ := hB.peek h
  have hsh := hB.shown hs
  have hgR : ∀ p ∈ R, Good q p := fun r hr => hg r (by rw [hB.hp]; simp [hr])
  obtain ⟨v, v1, v2, v3⟩ := lists_of hgR
  have hl := hB.hf.lists
  have hv : Lists q (ids (shown ps m)) (seq m.first.key m.first.time ds ++ v) := by
    refine ⟨?_, fun g hg => ?_⟩
    · rw [hsh, List.map_append, hl.idx, v1.idx, ids_cons]
    · rcases List.mem_append.1 hg with hg | hg
      · exact hl.mem g hg
      · exact v1.mem g hg
  rw [hw.unique h hv]
  refine ⟨?_, ?_, it, ?_, h2.inv, rfl, ?_, rfl, ⟨rfl, rfl, rfl, rfl, rfl, rfl⟩⟩
  · rw [List.length_append, SegmentList.seq_length, v2, hB.cs, hB.hf.count]
  · rw [total_append, seq_total, v3, hB.cd, hB.hf.dur]
  · rw [h1, e]; rfl
  · unfold Timeline.rows
    rw [h2.shown hs, hB.shown hs, List.drop_zero]
    exact rowsFrom_first rfl rfl

theorem total_cons (g : Seg) (w : List Seg) : total (g :: w) = g.dur + total w := rfl

/-- What the loop over the manifest leaves. -/
theorem manLoop_trim {mono : Bool} {q : Segs} (h : Inv mono q.sl) {ps : List Per} {now : Int} {bc bd : Nat}
    (hg : ∀ p ∈ ps, Good q p) (hs : ps.Pairwise (fun p r => p.pid < r.pid)) : ∀ (k : Nat) (m : Man) (w : List Seg), ManInv q ps m →
    m.firstIdx + m.perCount < 2 ^ 32 → m.segCount ≤ k → Lists q (ids (shown ps m)) w → w.length + bc < 2 ^ 32 → total w + bd < 2 ^ 64 →
    (∀ g ∈ w, 3 * m.target + g.dur < 2 ^ 32) →
    ∃ m', manLoop q ps now bc bd k m = .ok m' ∧ Lists q (ids (shown ps m')) (trim (keepMan m.conf m.target bc bd) w)
  | 0, m, w, hm, _, hk, hw, _, _, _ => by
    have : w = [] := by
      have := hw.idx
      unfold shown at this
      rw [if_pos (by omega)] at this
      exact List.map_eq_nil_iff.1 this
    subst this
    exact ⟨m, rfl, hw⟩
  | k + 1, m, w, hm, hb, hk, hw, h1, h2, h3 => by
    rw [manLoop]
    by_cases hz : m.segCount ≤ 0
    · rw [if_pos hz]
      have : w = [] := by
        have := hw.idx
        unfold shown at this
        rw [if_pos (by omega)] at this
        exact List.map_eq_nil_iff.1 this
      subst this
      exact ⟨m, rfl, hw⟩
    · rw [if_neg hz]
      obtain ⟨e1, e2, it, e3, e4⟩ := man_lists h hm (by omega) hg hs hw
      cases w with
      | nil => simp at e1; omega
      | cons g w =>
        have e5 : (m.segCount + bc) % 2 ^ 32 = (g :: w).length + bc := by rw [e1, Nat.mod_eq_of_lt (by omega)]
        have e6 : (m.dur + bd) % 2 ^ 64 = total (g :: w) + bd := by rw [e2, Nat.mod_eq_of_lt (by omega)]
        rw [e5, e6, trim]
        have again : ∀ m1, MCut q ps 0 m m1 → ∃ m', (manRemove q ps now m1 >>= fun m => manLoop q ps now bc bd k m) = .ok m' ∧
            Lists q (ids (shown ps m')) (trim (keepMan m.conf m.target bc bd) w) := by
          intro m1 hc
          have c1 := hc.count
          have c2 := hc.per
          obtain ⟨m2, r1, r2⟩ := manRemove_cut (now := now) h hc.inv (by omega) hg hs (by omega)
          rw [r1]
          simp only [Res.bind_ok]
          have hc2 := hc.trans r2
          have c3 := hc2.count
          have c4 := hc2.per
          have hl : Lists q (ids (shown ps m2)) w := by
            have := hw.tail
            rw [← rows_fst, ← List.map_tail, ← List.drop_one] at this
            rw [← rows_fst, hc2.rows]
            exact this
          rw [List.length_cons] at h1
          rw [total_cons] at h2
          have := manLoop_trim h (now := now) (bc := bc) (bd := bd) hg hs k m2 w hc2.inv (by omega) (by omega) hl (by omega) (by omega)
            (fun x hx => by rw [hc2.kept.target]; exact h3 x (by simp [hx]))
          rw [hc2.kept.conf, hc2.kept.target] at this
          exact this
        by_cases hlim : (g :: w).length + bc ≤ m.conf.maxSegs ∧ total (g :: w) + bd ≤ m.conf.maxDur
        · rw [if_pos hlim, if_pos (by unfold keepMan; simp only [hlim, decide_true, Bool.and_self, Bool.true_or])]
          exact ⟨m, rfl, hw⟩
        · rw [if_neg hlim]
          by_cases hend : m.conf.endList = 0
          · rw [if_pos hend, e3]
            simp only [Res.bind_ok]
            have hh := h3 g (by simp)
            rw [show headDur (g :: w) = g.dur from rfl, Nat.mod_eq_of_lt (show m.target * 3 < 2 ^ 32 by omega), Nat.mod_eq_of_lt (show m.target * 3 + g.dur < 2 ^ 32 by omega)]
            by_cases hd : m.dur < m.target * 3 + g.dur
            · rw [if_pos hd, if_pos]
              · refine ⟨_, rfl, ?_⟩
                have := e4.rows
                rw [← rows_fst, this, List.drop_zero, rows_fst]
                exact hw
              · unfold keepMan
                rw [Bool.or_eq_true, Bool.and_eq_true, Bool.and_eq_true]
                refine .inr ⟨decide_eq_true hend, decide_eq_true ?_⟩
                rw [e2]; show m.dur < 3 * m.target + g.dur; omega
            · rw [if_neg hd, if_neg]
              · exact again _ e4
              · unfold keepMan
                rw [Bool.or_eq_true, Bool.and_eq_true, Bool.and_eq_true]
                rintro (⟨a, b⟩ | ⟨_, b⟩)
                · exact hlim ⟨of_decide_eq_true a, of_decide_eq_true b⟩
                · have := of_decide_eq_true b
                  rw [e2] at this
                  have : m.dur < 3 * m.target + g.dur := this
                  omega
          · rw [if_neg hend, if_neg]
            · exact again _ (.refl hm)
            · unfold keepMan
              rw [Bool.or_eq_true, Bool.and_eq_true, Bool.and_eq_true]
              rintro (⟨a, b⟩ | ⟨a, _⟩)
              · exact hlim ⟨of_decide_eq_true a, of_decide_eq_true b⟩
              · exact hend (of_decide_eq_true a)

theorem ids_length : ∀ (ps : List Per), (ids ps).length = counts ps
  | [] => rfl
  | p :: ps => by rw [ids_cons, List.length_append, List.length_range', ids_length, counts_cons]

theorem drop_one_of {α : Type} {l l' : List α} {k : Nat} (e : l' = l.drop k) (hl : l'.length + 1 = l.length) : l' = l.tail := by
  rw [e, List.length_drop] at hl
  rw [← List.drop_one, e]
  by_cases h1 : l.length = 1
  · rw [List.drop_eq_nil_of_le (by omega), List.drop_eq_nil_of_le (by omega)]
  · rw [show k = 1 by omega]

/-- What the loop over the timeline leaves. -/
theorem tlLoop_trim {mono : Bool} {q : Segs} (h : Inv mono q.sl) {bc bd : Nat} : ∀ (k : Nat) (t : Tl) (w : List Seg), TlInv q t →
    t.segCount ≤ k → Lists q (ids t.periods) w → w.length + bc < 2 ^ 32 → total w + bd < 2 ^ 64 →
    ∃ t', tlLoop q bc bd k t = .ok t' ∧ Lists q (ids t'.periods) (trim (keepTl t.conf t.man.segCount bc bd) w)
  | 0, t, w, ht, hk, hw, _, _ => by
    have : w = [] := by
      have h1 := congrArg List.length hw.idx
      rw [List.length_map, ids_length, ← ht.cs] at h1
      exact List.eq_nil_of_length_eq_zero (by omega)
    subst this
    exact ⟨t, rfl, hw⟩
  | k + 1, t, w, ht, hk, hw, h1, h2 => by
    rw [tlLoop]
    obtain ⟨v, v1, v2, v3⟩ := lists_of ht.good
    rw [v1.unique h hw, ← ht.cs] at v2
    rw [v1.unique h hw, ← ht.cd] at v3
    cases he : t.periods with
    | nil =>
      rw [if_pos (by rfl)]
      have : w = [] := by
        have h1 := hw.idx
        rw [he] at h1
        exact List.map_eq_nil_iff.1 h1
      subst this
      exact ⟨t, rfl, hw⟩
    | cons p0 ps =>
      rw [if_neg (by simp)]
      have hpos := (ht.good p0 (by rw [he]; simp)).pos
      have hcs := ht.cs
      rw [he, counts_cons] at hcs
      cases w with
      | nil => simp at v2; omega
      | cons g w =>
        rw [trim]
        by_cases hs : t.segCount ≤ t.man.segCount
        · rw [if_pos hs, if_pos (by unfold keepTl; rw [v2]; simp [hs])]
          exact ⟨t, rfl, hw⟩
        · rw [if_neg hs]
          have e5 : (t.segCount + bc) % 2 ^ 32 = (g :: w).length + bc := by rw [v2, Nat.mod_eq_of_lt (by omega)]
          have e6 : (t.dur + bd) % 2 ^ 64 = total (g :: w) + bd := by rw [v3, Nat.mod_eq_of_lt (by omega)]
          rw [e5, e6]
          by_cases hlim : (g :: w).length + bc ≤ t.conf.maxSegs ∧ total (g :: w) + bd ≤ t.conf.maxDur
          · rw [if_pos hlim, if_pos (by unfold keepTl; simp only [hlim, decide_true, Bool.and_self, Bool.or_true])]
            exact ⟨t, rfl, hw⟩
          · rw [if_neg hlim, if_neg]
            · obtain ⟨t2, k1, k2, k3, k4, k5⟩ := remove1_spec h ht he (fun hpos => by
                obtain ⟨A, p, R, ds, hB⟩ := ht.man.begins hpos
                have e1 := hB.segCount_le ht
                have e2 := hB.cs
                have e3 := hB.hi
                have e4 := hB.lo
                have hpp := hB.hp
                rw [he] at hpp
                cases A with
                | nil =>
                  injection hpp with e5 e6
                  rw [e5]
                  have : counts [] = 0 := rfl
                  omega
                | cons a A =>
                  injection hpp with e5 e6
                  have hs := ht.sorted
                  rw [he, List.pairwise_cons] at hs
                  have := hs.1 p (by rw [e6]; simp)
                  have := (ht.good p0 (by rw [he]; simp)).pos
                  omega)
              rw [k1]
              simp only [Res.bind_ok]
              obtain ⟨j, ej⟩ := k3.ids
              have hl : Lists q (ids t2.periods) w := by
                have : ids t2.periods = (ids t.periods).tail := drop_one_of ej (by
                  rw [ids_length, ids_length, ← ht.cs, ← k2.cs]; exact k4)
                rw [this]
                exact hw.tail
              rw [List.length_cons] at h1
              rw [total_cons] at h2
              have := tlLoop_trim h (bc := bc) (bd := bd) k t2 w k2 (by omega) hl (by omega) (by omega)
              rw [k3.conf, k5] at this
              exact this
            · unfold keepTl
              rw [Bool.or_eq_true, Bool.and_eq_true]
              rintro (a | ⟨a, b⟩)
              · have := of_decide_eq_true a; rw [v2] at this; exact hs this
              · exact hlim ⟨of_decide_eq_true a, of_decide_eq_true b⟩

theorem Lists.length {q : Segs} {is : List Nat} {w : List Seg} (h : Lists q is w) : w.length = is.length := by
  rw [← h.idx, List.length_map]

theorem trim_length (keep : List Seg → Bool) (w : List Seg) : (trim keep w).length ≤ w.length := by
  obtain ⟨k, e⟩ := trim_suffix keep w
  rw [e, List.length_drop]; omega

/-- What `removeSegs` leaves. -/
theorem removeSegs_trim {mono : Bool} {q : Segs} (h : Inv mono q.sl) {now : Int} {bc bd min min' : Nat} {t t' : Tl} (ht : TlInv q t)
    (hb : t.man.firstIdx + t.man.perCount < 2 ^ 32) (hr : removeSegs q now bc bd t min = .ok (t', min')) {w l : List Seg}
    (hw : Lists q (ids (shown t.periods t.man)) w) (hl : Lists q (ids t.periods) l) (h1 : l.length + bc < 2 ^ 32) (h2 : total l + bd < 2 ^ 64)
    (hw1 : w.length + bc < 2 ^ 32) (hw2 : total w + bd < 2 ^ 64)
    (h3 : ∀ g ∈ w, 3 * t.man.target + g.dur < 2 ^ 32) :
    Lists q ((rows t'.periods t'.man).map (·.1)) (trim (keepMan t.man.conf t.man.target bc bd) w) ∧
      Lists q (ids t'.periods) (trim (keepTl t.conf (trim (keepMan t.man.conf t.man.target bc bd) w).length bc bd) l) := by
  unfold removeSegs at hr
  obtain ⟨m, j, m1, m2⟩ := manLoop_spec (now := now) (bc := bc) (bd := bd) h ht.good ht.pids t.man.segCount t.man ht.man hb
  obtain ⟨m', a1, a2⟩ := manLoop_trim h (now := now) (bc := bc) (bd := bd) ht.good ht.pids t.man.segCount t.man w ht.man hb (Nat.le_refl _) hw hw1 hw2 h3
  rw [m1] at hr a1
  injection a1 with a1
  subst a1
  simp only [Res.bind_ok] at hr
  have ht2 : TlInv q { t with man := m } := ⟨ht.good, ht.sorted, ht.pids, ht.nid, ht.cs, ht.cd, ht.cp, m2.inv⟩
  obtain ⟨t3, k1, k2, k3, k4⟩ := tlLoop_spec (bc := bc) (bd := bd) h t.segCount _ ht2
  obtain ⟨t4, b1, b2⟩ := tlLoop_trim h (bc := bc) (bd := bd) t.segCount _ l ht2 (Nat.le_refl _) hl h1 h2
  rw [k1] at hr b1
  injection b1 with b1
  subst b1
  simp only [Res.bind_ok] at hr
  injection hr with hr
  injection hr with hr _
  subst hr
  have hlen : (trim (keepMan t.man.conf t.man.target bc bd) w).length = m.segCount := by
    by_cases hc : 0 < m.segCount
    · exact (man_lists h m2.inv hc ht.good ht.pids a2).1
    · rw [a2.length]
      unfold shown
      rw [if_pos (by omega)]
      show 0 = _
      omega
  rw [hlen]
  obtain ⟨i, i1, i2⟩ := k3.rows
  have i0 : i = 0 := by
    rw [k4] at i1
    dsimp only at i1
    omega
  rw [i0, List.drop_zero] at i2
  rw [i2, rows_fst]
  exact ⟨a2, b2⟩

end Verif.Timeline
