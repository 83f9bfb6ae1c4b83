import Verif.TimelineInv

/-!
# Timelines: removing segments
-/

namespace Verif.Timeline

open Verif.SegmentList (SL Iter Seg Inv seq segs ahead)

/-- The indexes of the segments of periods. -/
def ids (ps : List Per) : List Nat := ps.flatMap (fun p => List.range' p.key p.count)

theorem ids_cons (p : Per) (ps : List Per) : ids (p :: ps) = List.range' p.key p.count ++ ids ps := by simp [ids]

theorem ids_append (a b : List Per) : ids (a ++ b) = ids a ++ ids b := by simp [ids]

/-- The manifest `m'` is `m` without the first `k` segments. -/
structure MCut (q : Segs) (ps : List Per) (k : Nat) (m m' : Man) : Prop where
  inv : ManInv q ps m'
  count : m'.segCount + k = m.segCount
  rows : rows ps m' = (rows ps m).drop k
  per : m'.firstIdx + m'.perCount = m.firstIdx + m.perCount
  kept : Kept m m'

theorem MCut.refl {q : Segs} {ps : List Per} {m : Man} (h : ManInv q ps m) : MCut q ps 0 m m := ⟨h, rfl, rfl, rfl, Kept.refl m⟩

theorem MCut.trans {q : Segs} {ps : List Per} {i j : Nat} {a b c : Man} (h : MCut q ps i a b) (k : MCut q ps j b c) : MCut q ps (i + j) a c :=
  ⟨k.inv, by have := h.count; have := k.count; omega, by rw [k.rows, h.rows, List.drop_drop], k.per.trans h.per, h.kept.trans k.kept⟩

theorem manRemove_cut {mono : Bool} {q : Segs} (h : Inv mono q.sl) {ps : List Per} {m : Man} {now : Int} (hm : ManInv q ps m)
    (hc : 0 < m.segCount) (hg : ∀ p ∈ ps, Good q p) (hs : ps.Pairwise (fun p r => p.pid < r.pid)) (hb : m.firstIdx + m.perCount < 2 ^ 32) :
    ∃ m', manRemove q ps now m = .ok m' ∧ MCut q ps 1 m m' := by
  obtain ⟨m', h1, h2, h3, h4, h5, h6, _⟩ := manRemove_spec (now := now) h hm hc hg hs hb
  exact ⟨m', h1, h2, h3, by rw [h4, List.drop_one], h5, h6⟩

/-- Only the iterator changes, and it stays at its segment. -/
theorem Begins.peek {mono : Bool} {q : Segs} (h : Inv mono q.sl) {ps : List Per} {m : Man} {A : List Per} {p : Per} {R : List Per} {ds : List Nat}
    (hB : Begins q ps m A p R ds) : ∃ d ds' it, ds = d :: ds' ∧ q.peek m.first.it = .ok (d, it) ∧
      Begins q ps { m with first := { m.first with it } } A p R ds := by
  obtain ⟨hp, hf, lo, hi, nx, cs, cp, cd⟩ := hB
  cases ds with
  | nil => exact absurd rfl hf.ne
  | cons d ds =>
    obtain ⟨it, h1, h2⟩ := hf.span.peek h
    exact ⟨d, ds, it, rfl, h1, hp, ⟨h2, hf.count, hf.dur, hf.ne⟩, lo, hi, nx, cs, cp, cd⟩

theorem rowsFrom_first {d : Nat} {p p' : Per} {ps : List Per} (h1 : p'.key = p.key) (h2 : p'.count = p.count) :
    rowsFrom d (p' :: ps) = rowsFrom d (p :: ps) := by
  rw [rowsFrom, rowsFrom, h1, h2]

theorem ManInv.peek {mono : Bool} {q : Segs} (h : Inv mono q.sl) {ps : List Per} {m : Man} (hm : ManInv q ps m) (hc : 0 < m.segCount)
    (hs : ps.Pairwise (fun p r => p.pid < r.pid)) :
    ∃ d it, q.peek m.first.it = .ok (d, it) ∧ MCut q ps 0 m { m with first := { m.first with it } } := by
  obtain ⟨A, p, R, ds, hB⟩ := hm.begins hc
  obtain ⟨d, ds', it, _, h1, h2⟩ := hB.peek h
  refine ⟨d, it, h1, h2.inv, rfl, ?_, rfl, ⟨rfl, rfl, rfl, rfl, rfl, rfl⟩⟩
  unfold Timeline.rows
  rw [h2.shown hs, hB.shown hs, List.drop_zero]
  exact rowsFrom_first rfl rfl

theorem manLoop_spec {mono : Bool} {q : Segs} (h : Inv mono q.sl) {ps : List Per} {now : Int} {bc bd : Nat}
    (hg : ∀ p ∈ ps, Good q p) (hs : ps.Pairwise (fun p r => p.pid < r.pid)) : ∀ (k : Nat) (m : Man), ManInv q ps m →
    m.firstIdx + m.perCount < 2 ^ 32 → ∃ m' j, manLoop q ps now bc bd k m = .ok m' ∧ MCut q ps j m m'
  | 0, m, hm, _ => ⟨m, 0, rfl, .refl hm⟩
  | k + 1, m, hm, hb => by
    rw [manLoop]
    split
    · exact ⟨m, 0, rfl, .refl hm⟩
    · rename_i hc
      split
      · exact ⟨m, 0, rfl, .refl hm⟩
      · split
        · obtain ⟨d, it, h1, h2⟩ := hm.peek h (by omega) hs
          rw [h1]
          simp only [Res.bind_ok]
          split
          · exact ⟨_, 0, rfl, h2⟩
          · obtain ⟨m2, h3, h4⟩ := manRemove_cut (now := now) h h2.inv (by dsimp only; omega) hg hs (by dsimp only; omega)
            rw [h3]
            simp only [Res.bind_ok]
            have hb2 := h4.per
            obtain ⟨m3, j, h5, h6⟩ := manLoop_spec h hg hs k m2 h4.inv (by dsimp only at hb2; omega)
            exact ⟨m3, 0 + 1 + j, h5, (h2.trans h4).trans h6⟩
        · obtain ⟨m2, h3, h4⟩ := manRemove_cut (now := now) h hm (by omega) hg hs hb
          rw [h3]
          simp only [Res.bind_ok]
          obtain ⟨m3, j, h5, h6⟩ := manLoop_spec h hg hs k m2 h4.inv (by rw [h4.per]; exact hb)
          exact ⟨m3, 1 + j, h5, h4.trans h6⟩

theorem manTruncate_spec {mono : Bool} {q : Segs} (h : Inv mono q.sl) {ps : List Per} {now : Int} {idx : Nat}
    (hg : ∀ p ∈ ps, Good q p) (hs : ps.Pairwise (fun p r => p.pid < r.pid)) : ∀ (k : Nat) (m : Man), ManInv q ps m → m.segCount ≤ k →
    m.firstIdx + m.perCount < 2 ^ 32 → ∃ m' j, manTruncate q ps now idx k m = .ok m' ∧ MCut q ps j m m' ∧
      (m'.segCount = 0 ∨ idx < m'.first.key)
  | 0, m, hm, hk, _ => ⟨m, 0, rfl, .refl hm, .inl (by omega)⟩
  | k + 1, m, hm, hk, hb => by
    rw [manTruncate]
    split
    · rename_i hc
      obtain ⟨m2, h3, h4⟩ := manRemove_cut (now := now) h hm hc.1 hg hs hb
      rw [h3]
      simp only [Res.bind_ok]
      have := h4.count
      obtain ⟨m3, j, h5, h6, h7⟩ := manTruncate_spec h hg hs k m2 h4.inv (by omega) (by rw [h4.per]; exact hb)
      exact ⟨m3, 1 + j, h5, h4.trans h6, h7⟩
    · exact ⟨m, 0, rfl, .refl hm, by omega⟩

/-! ## Timelines -/

/-- The timeline `t'` is `t` without some of its first segments, in the manifest and in the timeline. -/
structure Cut (t t' : Tl) : Prop where
  id : t'.id = t.id
  conf : t'.conf = t.conf
  nid : t'.nid = t.nid
  kept : Kept t.man t'.man
  per : t'.man.firstIdx + t'.man.perCount = t.man.firstIdx + t.man.perCount
  rows : ∃ k, t'.man.segCount + k = t.man.segCount ∧ rows t'.periods t'.man = (rows t.periods t.man).drop k
  ids : ∃ k, ids t'.periods = (ids t.periods).drop k
  lastTime : t'.lastTime = t.lastTime
  lastCreated : t'.lastCreated = t.lastCreated

theorem Cut.refl (t : Tl) : Cut t t := ⟨rfl, rfl, rfl, .refl _, rfl, ⟨0, rfl, rfl⟩, ⟨0, rfl⟩, rfl, rfl⟩

theorem Cut.trans {a b c : Tl} (h : Cut a b) (k : Cut b c) : Cut a c := by
  obtain ⟨h1, h2, h3, h4, h5, ⟨i, h6, h7⟩, ⟨j, h8⟩, h9, h10⟩ := h
  obtain ⟨k1, k2, k3, k4, k5, ⟨i', k6, k7⟩, ⟨j', k8⟩, k9, k10⟩ := k
  exact ⟨k1.trans h1, k2.trans h2, k3.trans h3, h4.trans k4, k5.trans h5, ⟨i + i', by omega, by rw [k7, h7, List.drop_drop]⟩,
    ⟨j + j', by rw [k8, h8, List.drop_drop]⟩, k9.trans h9, k10.trans h10⟩

theorem Begins.segCount_le {q : Segs} {t : Tl} (h : TlInv q t) {A : List Per} {p : Per} {R : List Per} {ds : List Nat}
    (hB : Begins q t.periods t.man A p R ds) : t.segCount = counts A + p.count + counts R := by
  rw [h.cs, hB.hp, counts_append, counts_cons]; omega

/-- The first segment of a timeline is removed. -/
theorem remove1_spec {mono : Bool} {q : Segs} (h : Inv mono q.sl) {t : Tl} (ht : TlInv q t) {p0 : Per} {ps : List Per} (he : t.periods = p0 :: ps)
    (hm : 0 < t.man.segCount → p0.key < t.man.first.key) :
    ∃ t', remove1 q t = .ok t' ∧ TlInv q t' ∧ Cut t t' ∧ t'.segCount + 1 = t.segCount ∧ t'.man = t.man := by
  obtain ⟨ds0, hp0⟩ := ht.good p0 (by rw [he]; simp)
  obtain ⟨good, sorted, pids, nid, cs, cd, cp, man⟩ := ht
  cases ds0 with
  | nil => exact absurd rfl hp0.ne
  | cons d ds =>
    obtain ⟨it, h1, h2⟩ := pop_spec h hp0
    have hc1 := hp0.count
    have hd1 := hp0.dur
    rw [List.length_cons] at hc1
    rw [List.sum_cons] at hd1
    rw [he] at good sorted pids nid cs cd cp
    rw [counts_cons] at cs
    rw [durs_cons] at cd
    rw [List.length_cons] at cp
    rw [List.pairwise_cons] at sorted pids
    unfold remove1
    rw [he]
    dsimp only
    rw [h1]
    simp only [Res.bind_ok]
    have e1 : SegmentList.sub32 t.segCount 1 = t.segCount - 1 := sub32_ok (by omega)
    have e2 : sub64 t.dur d = t.dur - d := sub64_ok (by omega)
    have e3 : SegmentList.sub32 t.perCount 1 = t.perCount - 1 := sub32_ok (by omega)
    rw [e1, e2, e3]
    by_cases hz : ds = []
    · subst hz
      rw [if_neg (by simp)]
      have hc2 : p0.count = 1 := hc1
      have hd2 : p0.dur = d := by simpa using hd1
      have hman : ManInv q ps t.man ∧ rows ps t.man = rows t.periods t.man := by
        by_cases hpos : 0 < t.man.segCount
        · obtain ⟨A, p, R, ds, hB⟩ := man.begins hpos
          have hs1 : t.periods.Pairwise (fun p r => p.pid < r.pid) := by rw [he]; exact List.pairwise_cons.2 pids
          have hlt := hm hpos
          have hpp := hB.hp
          rw [he] at hpp
          cases A with
          | nil =>
            exfalso
            injection hpp with e3 e4
            have := hB.hi
            have := Good.pos ⟨ds, hB.hf⟩
            rw [← e3] at *
            omega
          | cons a A =>
            injection hpp with e3 e4
            have hB' : Begins q ps t.man A p R ds := ⟨e4, hB.hf, hB.lo, hB.hi, hB.nx, hB.cs, hB.cp, hB.cd⟩
            refine ⟨hB'.inv, ?_⟩
            unfold Timeline.rows
            rw [hB'.shown pids.2, hB.shown hs1]
        · cases man with
          | empty e1 e2 e3 =>
            refine ⟨.empty e1 e2 e3, ?_⟩
            unfold Timeline.rows Timeline.shown
            rw [if_pos e1, if_pos e1]
          | some A p R ds hp hf lo hi nx cs cp cd =>
            exact absurd (Begins.pos ⟨hp, hf, lo, hi, nx, cs, cp, cd⟩) hpos
      refine ⟨_, rfl, ⟨fun r hr => good r (List.mem_cons_of_mem _ hr), sorted.2, pids.2, fun r hr => nid r (List.mem_cons_of_mem _ hr),
        by dsimp only; omega, by dsimp only; omega, by dsimp only; omega, hman.1⟩,
        ⟨rfl, rfl, rfl, .refl _, rfl, ⟨0, rfl, hman.2⟩, ⟨1, ?_⟩, rfl, rfl⟩, by dsimp only; omega, rfl⟩
      rw [he, ids_cons, hc2]
      rfl
    · have hpos := List.length_pos_iff.2 hz
      rw [if_pos hpos]
      have hp' : PerOk q { p0 with count := ds.length, time := p0.time + d, dur := ds.sum, key := p0.key + 1, it } ds := ⟨h2, rfl, rfl, hz⟩
      generalize hP : ({ p0 with count := ds.length, time := p0.time + d, dur := ds.sum, key := p0.key + 1, it } : Per) = p' at *
      have hk : p'.key = p0.key + 1 := by rw [← hP]
      have hcn : p'.count = ds.length := by rw [← hP]
      have hdn : p'.dur = ds.sum := by rw [← hP]
      have hpn : p'.pid = p0.pid := by rw [← hP]
      have sorted' : (p' :: ps).Pairwise (fun p r => p.key + p.count ≤ r.key) :=
        List.pairwise_cons.2 ⟨fun r hr => by have := sorted.1 r hr; omega, sorted.2⟩
      have pids' : (p' :: ps).Pairwise (fun p r => p.pid < r.pid) :=
        List.pairwise_cons.2 ⟨fun r hr => by have := pids.1 r hr; omega, pids.2⟩
      have hman : ManInv q (p' :: ps) t.man ∧ rows (p' :: ps) t.man = rows t.periods t.man := by
        by_cases hpos : 0 < t.man.segCount
        · obtain ⟨A, p, R, ds', hB⟩ := man.begins hpos
          have hs1 : t.periods.Pairwise (fun p r => p.pid < r.pid) := by rw [he]; exact List.pairwise_cons.2 pids
          have hlt := hm hpos
          have hpp := hB.hp
          rw [he] at hpp
          have : ∃ A' r, Begins q (p' :: ps) t.man A' r R ds' := by
            cases A with
            | nil =>
              injection hpp with e3 e4
              have hhi := hB.hi
              rw [← e3] at hhi
              exact ⟨[], p', by rw [e4]; rfl, hB.hf, by omega, by omega, hB.nx, hB.cs, hB.cp, hB.cd⟩
            | cons a A =>
              injection hpp with e3 e4
              exact ⟨p' :: A, p, by rw [e4]; rfl, hB.hf, hB.lo, hB.hi, hB.nx, hB.cs, hB.cp, hB.cd⟩
          obtain ⟨A', r, hB'⟩ := this
          refine ⟨hB'.inv, ?_⟩
          unfold Timeline.rows
          rw [hB'.shown pids', hB.shown hs1]
        · cases man with
          | empty e1 e2 e3 =>
            refine ⟨.empty e1 e2 e3, ?_⟩
            unfold Timeline.rows Timeline.shown
            rw [if_pos e1, if_pos e1]
          | some A p R ds hp hf lo hi nx cs cp cd =>
            exact absurd (Begins.pos ⟨hp, hf, lo, hi, nx, cs, cp, cd⟩) hpos
      refine ⟨_, rfl, ⟨fun r hr => ?_, sorted', pids', fun r hr => ?_, ?_, ?_, ?_, hman.1⟩,
        ⟨rfl, rfl, rfl, .refl _, rfl, ⟨0, rfl, hman.2⟩, ⟨1, ?_⟩, rfl, rfl⟩, by dsimp only; omega, rfl⟩
      · rcases List.mem_cons.1 hr with hr | hr
        · rw [hr]; exact ⟨ds, hp'⟩
        · exact good r (List.mem_cons_of_mem _ hr)
      · rcases List.mem_cons.1 hr with hr | hr
        · rw [hr, hpn]; exact nid p0 (by simp)
        · exact nid r (List.mem_cons_of_mem _ hr)
      · dsimp only; rw [counts_cons]; omega
      · dsimp only; rw [durs_cons]; omega
      · dsimp only; rw [List.length_cons]; exact cp
      · dsimp only
        rw [he, ids_cons, ids_cons, hc1, range'_cons, hk, hcn]
        rfl

theorem tlLoop_spec {mono : Bool} {q : Segs} (h : Inv mono q.sl) {bc bd : Nat} : ∀ (k : Nat) (t : Tl), TlInv q t →
    ∃ t', tlLoop q bc bd k t = .ok t' ∧ TlInv q t' ∧ Cut t t' ∧ t'.man = t.man
  | 0, t, ht => ⟨t, rfl, ht, .refl t, rfl⟩
  | k + 1, t, ht => by
    rw [tlLoop]
    split
    · exact ⟨t, rfl, ht, .refl t, rfl⟩
    · rename_i hne
      split
      · exact ⟨t, rfl, ht, .refl t, rfl⟩
      · rename_i hc
        split
        · exact ⟨t, rfl, ht, .refl t, rfl⟩
        · cases he : t.periods with
          | nil => rw [he] at hne; exact absurd rfl hne
          | cons p0 ps =>
            obtain ⟨t2, h1, h2, h3, h4, h5⟩ := remove1_spec h ht he (fun hpos => by
              obtain ⟨A, p, R, ds, hB⟩ := ht.man.begins hpos
              have e1 := hB.segCount_le ht
              have e2 := hB.cs
              have e3 := hB.hi
              have e4 := hB.lo
              have hpp := hB.hp
              rw [he] at hpp
              cases A with
              | nil =>
                injection hpp with e5 e6
                rw [e5]
                have : counts [] = 0 := rfl
                omega
              | cons a A =>
                injection hpp with e5 e6
                have hs := ht.sorted
                rw [he, List.pairwise_cons] at hs
                have := hs.1 p (by rw [e6]; simp)
                have := (ht.good p0 (by rw [he]; simp)).pos
                omega)
            rw [h1]
            simp only [Res.bind_ok]
            obtain ⟨t3, k1, k2, k3, k4⟩ := tlLoop_spec h k t2 h2
            exact ⟨t3, k1, k2, h3.trans k3, k4.trans h5⟩

/-- The least index of the timeline, when it is below. -/
theorem minOf_spec {q : Segs} {t : Tl} (ht : TlInv q t) (min : Nat) :
    minOf t min ≤ min ∧ (∀ p ∈ t.periods, minOf t min ≤ p.key) ∧ (minOf t min = min ∨ ∃ p ∈ t.periods, minOf t min = p.key) := by
  unfold minOf
  have hs := ht.sorted
  cases he : t.periods with
  | nil => simp
  | cons p ps =>
    rw [he, List.pairwise_cons] at hs
    dsimp only
    refine ⟨by split <;> omega, fun r hr => ?_, ?_⟩
    · rcases List.mem_cons.1 hr with hr | hr
      · rw [hr]; split <;> omega
      · have := hs.1 r hr
        split <;> omega
    · split
      · exact .inr ⟨p, by simp, rfl⟩
      · exact .inl rfl

/-- What removing leaves: the index from which on segments are kept is below all segments of the timeline. -/
structure MinOk (t : Tl) (min min' : Nat) : Prop where
  le : min' ≤ min
  low : ∀ p ∈ t.periods, min' ≤ p.key
  tight : min' = min ∨ ∃ p ∈ t.periods, min' = p.key

theorem removeSegs_spec {mono : Bool} {q : Segs} (h : Inv mono q.sl) {now : Int} {bc bd : Nat} {t : Tl} {min : Nat} (ht : TlInv q t)
    (hb : t.man.firstIdx + t.man.perCount < 2 ^ 32) :
    ∃ t' min', removeSegs q now bc bd t min = .ok (t', min') ∧ TlInv q t' ∧ Cut t t' ∧ MinOk t' min min' := by
  unfold removeSegs
  obtain ⟨m, j, h1, h2⟩ := manLoop_spec (now := now) (bc := bc) (bd := bd) h ht.good ht.pids t.man.segCount t.man ht.man hb
  rw [h1]
  simp only [Res.bind_ok]
  have ht2 : TlInv q { t with man := m } := ⟨ht.good, ht.sorted, ht.pids, ht.nid, ht.cs, ht.cd, ht.cp, h2.inv⟩
  have hc2 : Cut t { t with man := m } := ⟨rfl, rfl, rfl, h2.kept, h2.per, ⟨j, h2.count, h2.rows⟩, ⟨0, rfl⟩, rfl, rfl⟩
  obtain ⟨t3, k1, k2, k3, k4⟩ := tlLoop_spec (bc := bc) (bd := bd) h t.segCount _ ht2
  rw [k1]
  obtain ⟨m1, m2, m3⟩ := minOf_spec k2 min
  exact ⟨t3, _, rfl, k2, hc2.trans k3, m1, m2, m3⟩

theorem inactiveRemove_spec {mono : Bool} {q : Segs} (h : Inv mono q.sl) {now : Int} {scale : Nat} {t : Tl} {min : Nat} (ht : TlInv q t)
    (hb : t.man.firstIdx + t.man.perCount < 2 ^ 32) :
    ∃ t' min', inactiveRemove q now scale t min = .ok (t', min') ∧ TlInv q t' ∧ Cut t t' ∧ MinOk t' min min' := by
  unfold inactiveRemove
  split
  · obtain ⟨m1, m2, m3⟩ := minOf_spec ht min
    exact ⟨t, _, rfl, ht, .refl t, m1, m2, m3⟩
  · exact removeSegs_spec h ht hb

theorem truncLoop_spec {mono : Bool} {q : Segs} (h : Inv mono q.sl) {idx : Nat} : ∀ (k : Nat) (t : Tl), TlInv q t → t.segCount ≤ k →
    (t.man.segCount = 0 ∨ idx < t.man.first.key) → ∃ t', truncLoop q idx k t = .ok t' ∧ TlInv q t' ∧ Cut t t' ∧ t'.man = t.man ∧
      (∀ p ∈ t'.periods, idx < p.key)
  | 0, t, ht, hk, _ => by
    refine ⟨t, rfl, ht, .refl t, rfl, fun p hp => ?_⟩
    have h1 := (ht.good p hp).pos
    have h2 := ht.cs
    obtain ⟨a, b, e⟩ := List.append_of_mem hp
    rw [e, counts_append, counts_cons] at h2
    omega
  | k + 1, t, ht, hk, hm => by
    rw [truncLoop]
    cases he : t.periods with
    | nil => exact ⟨t, rfl, ht, .refl t, rfl, fun p hp => by rw [he] at hp; exact absurd hp List.not_mem_nil⟩
    | cons p0 ps =>
      dsimp only
      have hs := ht.sorted
      rw [he, List.pairwise_cons] at hs
      split
      · refine ⟨t, rfl, ht, .refl t, rfl, fun p hp => ?_⟩
        rw [he] at hp
        rcases List.mem_cons.1 hp with hp | hp
        · rw [hp]; assumption
        · have := hs.1 p hp; omega
      · obtain ⟨t2, h1, h2, h3, h4, h5⟩ := remove1_spec h ht he (fun hpos => by omega)
        rw [h1]
        simp only [Res.bind_ok]
        obtain ⟨t3, k1, k2, k3, k4, k5⟩ := truncLoop_spec h k t2 h2 (by omega) (by rw [h5]; exact hm)
        exact ⟨t3, k1, k2, h3.trans k3, k4.trans h5, k5⟩

theorem truncTl_spec {mono : Bool} {q : Segs} (h : Inv mono q.sl) {now : Int} {idx : Nat} {t : Tl} (ht : TlInv q t)
    (hb : t.man.firstIdx + t.man.perCount < 2 ^ 32) :
    ∃ t', truncTl q now idx t = .ok t' ∧ TlInv q t' ∧ Cut t t' ∧ (t.conf.noTrunc = false → ∀ p ∈ t'.periods, idx < p.key) := by
  unfold truncTl
  split
  · rename_i hn
    exact ⟨t, rfl, ht, .refl t, fun e => by rw [e] at hn; exact absurd hn (by decide)⟩
  · obtain ⟨m, j, h1, h2, h3⟩ := manTruncate_spec (now := now) (idx := idx) h ht.good ht.pids t.man.segCount t.man ht.man (Nat.le_refl _) hb
    rw [h1]
    simp only [Res.bind_ok]
    have ht2 : TlInv q { t with man := m } := ⟨ht.good, ht.sorted, ht.pids, ht.nid, ht.cs, ht.cd, ht.cp, h2.inv⟩
    have hc2 : Cut t { t with man := m } := ⟨rfl, rfl, rfl, h2.kept, h2.per, ⟨j, h2.count, h2.rows⟩, ⟨0, rfl⟩, rfl, rfl⟩
    obtain ⟨t3, k1, k2, k3, k4, k5⟩ := truncLoop_spec h t.segCount _ ht2 (Nat.le_refl _) h3
    exact ⟨t3, k1, k2, hc2.trans k3, fun _ => k5⟩

end Verif.Timeline
