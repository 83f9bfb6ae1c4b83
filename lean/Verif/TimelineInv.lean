import Verif.TimelineIter

/-!
# Timelines: the invariant, and what the operations on one timeline keep
-/

namespace Verif.Timeline

open Verif.SegmentList (SL Iter Seg Inv seq segs ahead)

/-! ## Iterators -/

/-- The iterator is at the first of segments that follow each other, with the given durations. -/
structure Span (q : Segs) (it : Iter) (key : Nat) (time : Int) (ds : List Nat) : Prop where
  base : q.base ≤ it.node
  ok : (q.rel it).Ok q.sl
  seg : ∃ A C, segs q.sl = A ++ (seq key time ds ++ C) ∧ ahead q.sl (q.rel it) = ds ++ C.map (·.dur)

theorem rel_abs (q : Segs) (i : Iter) : q.rel (q.abs i) = i := by
  obtain ⟨a, b, c⟩ := i
  simp [Segs.rel, Segs.abs]

theorem abs_base (q : Segs) (i : Iter) : q.base ≤ (q.abs i).node := by
  show q.base ≤ i.node + q.base; omega

theorem Span.getOne {mono : Bool} {q : Segs} (h : Inv mono q.sl) {it : Iter} {key d : Nat} {time : Int} {ds : List Nat}
    (hs : Span q it key time (d :: ds)) : ∃ it', q.getOne it = .ok (d, it') ∧ Span q it' (key + 1) (time + d) ds := by
  obtain ⟨b, o, A, C, h1, h2⟩ := hs
  rcases SegmentList.getOne_spec h o with ⟨e, _⟩ | ⟨d', i, g1, g2, g3⟩
  · rw [e] at h2; exact nomatch h2
  · rw [h2, List.cons_append] at g2
    injection g2 with g2 g4
    subst g2
    refine ⟨q.abs i, ?_, abs_base q i, by rw [rel_abs]; exact g3, A ++ [⟨key, time, d⟩], C, ?_, by rw [rel_abs]; exact g4.symm⟩
    · unfold Segs.getOne
      rw [if_neg (by omega), g1]
      rfl
    · rw [h1]; simp [seq]

theorem Span.peek {mono : Bool} {q : Segs} (h : Inv mono q.sl) {it : Iter} {key d : Nat} {time : Int} {ds : List Nat}
    (hs : Span q it key time (d :: ds)) : ∃ it', q.peek it = .ok (d, it') ∧ Span q it' key time (d :: ds) := by
  obtain ⟨b, o, A, C, h1, h2⟩ := hs
  rcases SegmentList.moveNext_spec h o with ⟨e, _⟩ | ⟨i, e, n, g1, g2, g3, g4, g5⟩
  · rw [e] at h2; exact nomatch h2
  · have hd : e.dur = d := by
      rw [← g5, SegmentList.ahead_eq g2 g3, show e.count - i.off = (e.count - i.off - 1) + 1 by omega, List.replicate_succ] at h2
      simp only [List.cons_append] at h2
      injection h2
    refine ⟨q.abs i, ?_, abs_base q i, by rw [rel_abs]; exact ⟨n, e, g2, g3, Nat.le_of_lt g4⟩, A, C, h1, by rw [rel_abs, g5]; exact h2⟩
    unfold Segs.peek SegmentList.peek
    rw [if_neg (by omega), g1, ← hd]
    rfl

theorem Span.mono {q : Segs} {it : Iter} {key : Nat} {time : Int} {ds ds' : List Nat} (hs : Span q it key time (ds ++ ds')) :
    Span q it key time ds := by
  obtain ⟨b, o, A, C, h1, h2⟩ := hs
  refine ⟨b, o, A, seq (key + ds.length) (time + (ds.sum : Nat)) ds' ++ C, ?_, ?_⟩
  · rw [h1, SegmentList.seq_append, List.append_assoc]
  · rw [h2, List.map_append, SegmentList.seq_durs, List.append_assoc]

/-- The iterator of a new period. -/
theorem Span.last {mono : Bool} {q : Segs} (h : Inv mono q.sl) {H : List Seg} {g : Seg} (hg : segs q.sl = H ++ [g]) :
    ∃ it, q.last = .ok it ∧ Span q it g.idx g.time [g.dur] := by
  obtain ⟨i, h1, h2, h3⟩ := SegmentList.iterLast_spec h hg
  refine ⟨q.abs i, ?_, abs_base q i, by rw [rel_abs]; exact h2, H, [], by rw [hg]; rfl, by rw [rel_abs, h3]; rfl⟩
  unfold Segs.last
  rw [h1]
  rfl

/-- The first index that is above all of the list. -/
def hi (q : Segs) : Nat := match (segs q.sl).getLast? with
  | none => 0
  | some g => g.idx + 1

theorem hi_snoc {q : Segs} {H : List Seg} {g : Seg} (h : segs q.sl = H ++ [g]) : hi q = g.idx + 1 := by
  unfold hi; rw [h]; simp

theorem lt_hi {mono : Bool} {q : Segs} (h : Inv mono q.sl) {g : Seg} (hg : g ∈ segs q.sl) : g.idx < hi q := by
  rcases SegmentList.snoc_cases (segs q.sl) with e | ⟨H, k, e⟩
  · rw [e] at hg; exact absurd hg List.not_mem_nil
  · rw [hi_snoc e]
    rw [e] at hg
    have hs := SegmentList.segs_sorted h
    rw [e] at hs
    rcases List.mem_append.1 hg with hg | hg
    · have := (List.pairwise_append.1 hs).2.2 g hg k (by simp); omega
    · rw [List.mem_singleton.1 hg]; omega

theorem seq_last_mem : ∀ (ds : List Nat) (i : Nat) (t : Int), ds ≠ [] → ∃ g ∈ seq i t ds, g.idx + 1 = i + ds.length
  | [], _, _, h => absurd rfl h
  | [d], i, t, _ => ⟨⟨i, t, d⟩, by simp [seq], by simp⟩
  | d :: e :: ds, i, t, _ => by
    obtain ⟨g, h1, h2⟩ := seq_last_mem (e :: ds) (i + 1) (t + d) (by simp)
    refine ⟨g, ?_, by simp at h2 ⊢; omega⟩
    rw [seq]
    exact List.mem_cons_of_mem _ h1

theorem Span.le_hi {mono : Bool} {q : Segs} (h : Inv mono q.sl) {it : Iter} {key : Nat} {time : Int} {ds : List Nat}
    (hs : Span q it key time ds) (hne : ds ≠ []) : key + ds.length ≤ hi q := by
  obtain ⟨_, _, A, C, h1, _⟩ := hs
  obtain ⟨g, g1, g2⟩ := seq_last_mem ds key time hne
  have := lt_hi h (g := g) (by rw [h1]; simp [g1])
  omega

/-- Adding a segment to the list. -/
theorem Span.add {q : Segs} {sl : SL} {idx dur : Nat} {t : Int} {mono : Bool} (h : Inv mono q.sl)
    (ha : SegmentList.AddOk mono (segs q.sl) idx t dur) (he : SegmentList.add q.sl true idx t dur = .ok sl)
    {it : Iter} {key : Nat} {time : Int} {ds : List Nat} (hs : Span q it key time ds) : Span { q with sl } it key time ds := by
  obtain ⟨b, o, A, C, h1, h2⟩ := hs
  obtain ⟨i1, i2⟩ := SegmentList.add_iter he o
  obtain ⟨_, s2⟩ := SegmentList.add_spec h ha he
  refine ⟨b, i1, A, C ++ [⟨idx, t, dur⟩], ?_, ?_⟩
  · dsimp only; rw [s2, h1]; simp
  · exact i2.trans (by rw [h2]; simp)

/-- Adding the segment that follows. -/
theorem Span.ext {q : Segs} {sl : SL} {idx dur : Nat} {t : Int} {mono : Bool} (h : Inv mono q.sl)
    (ha : SegmentList.AddOk mono (segs q.sl) idx t dur) (he : SegmentList.add q.sl true idx t dur = .ok sl)
    {it : Iter} {key : Nat} {time : Int} {ds : List Nat} (hs : Span q it key time ds) (hne : ds ≠ []) (hi' : idx = key + ds.length)
    (ht : t = time + (ds.sum : Nat)) : Span { q with sl } it key time (ds ++ [dur]) := by
  obtain ⟨b, o, A, C, h1, h2⟩ := hs
  obtain ⟨i1, i2⟩ := SegmentList.add_iter he o
  obtain ⟨_, s2⟩ := SegmentList.add_spec h ha he
  have hC : C = [] := by
    rcases SegmentList.snoc_cases C with e | ⟨C', g, e⟩
    · exact e
    · exfalso
      have hl := (ha.1 g (by rw [h1, e]; simp)).1
      obtain ⟨k, k1, k2⟩ := seq_last_mem ds key time hne
      have hst := SegmentList.segs_sorted h
      rw [h1, e] at hst
      have := (List.pairwise_append.1 (List.pairwise_append.1 hst).2.1).2.2 k k1 g (by simp)
      omega
  subst hC
  refine ⟨b, i1, A, [], ?_, ?_⟩
  · dsimp only; rw [s2, h1, SegmentList.seq_append, hi', ht]; simp [seq]
  · exact i2.trans (by rw [h2]; simp)

/-- Freeing nodes. -/
theorem Span.free {mono : Bool} {q : Segs} (h : Inv mono q.sl) {min : Nat} {it : Iter} {key : Nat} {time : Int} {ds : List Nat}
    (hs : Span q it key time ds) (hne : ds ≠ []) (hm : min ≤ key) : Span (q.free min) it key time ds := by
  obtain ⟨b, o, A, C, h1, h2⟩ := hs
  have hst := SegmentList.segs_sorted h
  have hall : ∀ g ∈ seq key time ds ++ C, key ≤ g.idx := by
    intro g hg
    rcases List.mem_append.1 hg with hg1 | hg1
    · exact (SegmentList.seq_mem _ _ _ g hg1).1
    · rw [h1] at hst
      cases ds with
      | nil => exact absurd rfl hne
      | cons d ds =>
        have := (List.pairwise_append.1 (List.pairwise_append.1 hst).2.1).2.2 ⟨key, time, d⟩ (by simp [seq]) g hg1
        exact Nat.le_of_lt this
  obtain ⟨f1, f2, f3⟩ := SegmentList.free_iter h (min := min) o h1 (by rw [h2, List.map_append, SegmentList.seq_durs])
    (fun g hg => Nat.le_trans hm (hall g hg))
  have hrel : (q.free min).rel it = { q.rel it with node := (q.rel it).node - (q.sl.nodes.length - (SegmentList.freeNodes q.sl min).nodes.length) } := by
    simp only [Segs.rel, Segs.free, Nat.sub_sub]
  obtain ⟨_, pre, p1, p2, _⟩ := SegmentList.free_spec h min
  have hpre : ∃ A', segs (SegmentList.freeNodes q.sl min) = A' ++ (seq key time ds ++ C) := by
    rw [h1] at p1
    rcases List.append_eq_append_iff.1 p1 with ⟨a', e1, e2⟩ | ⟨c', e1, e2⟩
    · -- more is freed than is in front
      cases a' with
      | nil => exact ⟨[], e2.symm⟩
      | cons g a' =>
        exfalso
        have h3 := p2 g (by rw [e1]; simp)
        have h4 := hall g (by rw [e2]; simp)
        omega
    · exact ⟨c', e2⟩
  obtain ⟨A', hA'⟩ := hpre
  refine ⟨?_, by rw [hrel]; exact f2, A', C, hA', ?_⟩
  · have : (q.rel it).node = it.node - q.base := rfl
    show q.base + (q.sl.nodes.length - (SegmentList.freeNodes q.sl min).nodes.length) ≤ it.node
    omega
  · rw [hrel]
    show ahead (SegmentList.freeNodes q.sl min) _ = _
    rw [f3, List.map_append, SegmentList.seq_durs]

/-- The last segment gets its duration, and it is none of these. -/
theorem Span.upd {mono : Bool} {q : Segs} {sl : SL} {dur : Nat} (h : Inv mono q.sl) (hd : dur < 2 ^ 32) {H : List Seg} {g : Seg}
    (hg : segs q.sl = H ++ [g]) (hB : g.time + (dur : Nat) ≤ SegmentList.B) (he : SegmentList.updateLast q.sl dur = .ok sl)
    {it : Iter} {key : Nat} {time : Int} {ds : List Nat} (hs : Span q it key time ds) (hne : ds ≠ []) (hl : key + ds.length ≤ g.idx) :
    Span { q with sl } it key time ds := by
  obtain ⟨b, o, A, C, h1, h2⟩ := hs
  obtain ⟨_, s2, _⟩ := SegmentList.update_spec h hd hg hB he
  rcases SegmentList.snoc_cases C with e | ⟨C', k, e⟩
  · exfalso
    rw [e, List.append_nil] at h1
    obtain ⟨k, k1, k2⟩ := seq_last_mem ds key time hne
    rcases SegmentList.snoc_cases ds with e' | ⟨ds', d, e'⟩
    · exact hne e'
    · rw [e', SegmentList.seq_append, hg, ← List.append_assoc] at h1
      obtain ⟨_, e3⟩ := List.append_inj' h1 rfl
      injection e3 with e3
      rw [e'] at hl
      rw [e3] at hl
      simp at hl
      omega
  · rw [e, ← List.append_assoc, ← List.append_assoc, hg] at h1
    obtain ⟨e1, e2⟩ := List.append_inj' h1 rfl
    injection e2 with e2
    have hlen : 2 ≤ (ahead q.sl (q.rel it)).length := by
      rw [h2, e]
      have : 0 < ds.length := List.length_pos_iff.2 hne
      simp; omega
    obtain ⟨i1, i2⟩ := SegmentList.update_iter he o hlen
    refine ⟨b, i1, A, C' ++ [{ g with dur }], ?_, ?_⟩
    · dsimp only; rw [s2, e1]; simp
    · refine i2.trans ?_
      rw [h2, e, List.map_append, ← List.append_assoc, List.map_singleton, List.dropLast_concat]
      simp

/-- The last segment gets its duration, and it is the last of these. -/
theorem Span.updLast {mono : Bool} {q : Segs} {sl : SL} {dur : Nat} (h : Inv mono q.sl) (hd : dur < 2 ^ 32) {H : List Seg} {g : Seg}
    (hg : segs q.sl = H ++ [g]) (hB : g.time + (dur : Nat) ≤ SegmentList.B) (he : SegmentList.updateLast q.sl dur = .ok sl)
    {it : Iter} {key : Nat} {time : Int} {ds : List Nat} (hs : Span q it key time ds) (hl : key + ds.length = g.idx + 1) (hne : ds ≠ []) :
    ∃ ds', ds = ds' ++ [0] ∧ g.idx = key + ds'.length ∧ g.time = time + (ds'.sum : Nat) ∧
      (ds' ≠ [] → Span { q with sl } it key time (ds' ++ [dur])) := by
  obtain ⟨b, o, A, C, h1, h2⟩ := hs
  obtain ⟨_, s2, s3⟩ := SegmentList.update_spec h hd hg hB he
  have hC : C = [] := by
    rcases SegmentList.snoc_cases C with e | ⟨C', k, e⟩
    · exact e
    · exfalso
      have hst := SegmentList.segs_sorted h
      obtain ⟨k', k1, k2⟩ := seq_last_mem ds key time hne
      have h3 := h1
      rw [e, ← List.append_assoc, ← List.append_assoc, hg] at h3
      obtain ⟨_, e2⟩ := List.append_inj' h3 rfl
      injection e2 with e2
      rw [h1, e] at hst
      have := (List.pairwise_append.1 (List.pairwise_append.1 hst).2.1).2.2 k' k1 k (by simp)
      rw [← e2] at this
      omega
  subst hC
  rw [List.append_nil] at h1
  rcases SegmentList.snoc_cases ds with e' | ⟨ds', d, e'⟩
  · exact absurd e' hne
  · rw [e', SegmentList.seq_append, hg, ← List.append_assoc] at h1
    obtain ⟨e2, e3⟩ := List.append_inj' h1 rfl
    injection e3 with e3
    have hd0 : d = 0 := by rw [e3] at s3; exact s3
    refine ⟨ds', by rw [e', hd0], by rw [e3], by rw [e3], fun hn => ?_⟩
    have hlen : 2 ≤ (ahead q.sl (q.rel it)).length := by
      rw [h2, e']
      have : 0 < ds'.length := List.length_pos_iff.2 hn
      simp; omega
    obtain ⟨i1, i2⟩ := SegmentList.update_iter he o hlen
    refine ⟨b, i1, A, [], ?_, ?_⟩
    · dsimp only; rw [s2, e2, e3, SegmentList.seq_append]; simp [seq]
    · refine i2.trans ?_
      rw [h2, e', List.map_nil, List.append_nil, List.dropLast_concat]
      simp

/-! ## The invariant -/

/-- A period stands for the segments that follow its iterator. -/
structure PerOk (q : Segs) (p : Per) (ds : List Nat) : Prop where
  span : Span q p.it p.key p.time ds
  count : p.count = ds.length
  dur : p.dur = ds.sum
  ne : ds ≠ []

def Good (q : Segs) (p : Per) : Prop := ∃ ds, PerOk q p ds

/-- The sums over periods. -/
def counts (ps : List Per) : Nat := (ps.map (·.count)).sum
def durs (ps : List Per) : Nat := (ps.map (·.dur)).sum

theorem counts_cons (p : Per) (ps : List Per) : counts (p :: ps) = p.count + counts ps := rfl
theorem durs_cons (p : Per) (ps : List Per) : durs (p :: ps) = p.dur + durs ps := rfl
theorem counts_append (a b : List Per) : counts (a ++ b) = counts a + counts b := by simp [counts]
theorem durs_append (a b : List Per) : durs (a ++ b) = durs a + durs b := by simp [durs]

/-- The manifest is empty, or it begins in the period `p` of the timeline, and goes on with all that follow. -/
inductive ManInv (q : Segs) (ps : List Per) (m : Man) : Prop
  | empty (e1 : m.segCount = 0) (e2 : m.perCount = 0) (e3 : m.dur = 0)
  | some (A : List Per) (p : Per) (R : List Per) (ds : List Nat) (hp : ps = A ++ p :: R) (hf : PerOk q m.first ds) (lo : p.key ≤ m.first.key)
      (hi : m.first.key + m.first.count = p.key + p.count) (nx : m.next = R.head?.map (·.pid))
      (cs : m.segCount = m.first.count + counts R) (cp : m.perCount = 1 + R.length) (cd : m.dur = m.first.dur + durs R)

structure TlInv (q : Segs) (t : Tl) : Prop where
  good : ∀ p ∈ t.periods, Good q p
  sorted : t.periods.Pairwise (fun p r => p.key + p.count ≤ r.key)
  pids : t.periods.Pairwise (fun p r => p.pid < r.pid)
  nid : ∀ p ∈ t.periods, p.pid < t.nid
  cs : t.segCount = counts t.periods
  cd : t.dur = durs t.periods
  cp : t.perCount = t.periods.length
  man : ManInv q t.periods t.man

theorem Good.pos {q : Segs} {p : Per} (h : Good q p) : 0 < p.count := by
  obtain ⟨ds, h⟩ := h
  rw [h.count]; exact List.length_pos_iff.2 h.ne

theorem Good.le_hi {mono : Bool} {q : Segs} (hi' : Inv mono q.sl) {p : Per} (h : Good q p) : p.key + p.count ≤ hi q := by
  obtain ⟨ds, h⟩ := h
  rw [h.count]; exact h.span.le_hi hi' h.ne

theorem le_hi32 {mono : Bool} {q : Segs} (h : Inv mono q.sl) : hi q ≤ 2 ^ 32 := by
  unfold hi
  cases hl : (segs q.sl).getLast? with
  | none => simp
  | some g =>
    have hm := List.mem_of_getLast? hl
    obtain ⟨n, hn, hg⟩ := List.mem_flatMap.1 hm
    have h1 := (SegmentList.seq_mem _ _ _ g hg)
    have h2 := (h.ok n hn).last
    have h3 := (h.ok n hn).bound
    dsimp only
    omega

/-- All segments of the periods have indexes of their own. -/
theorem counts_le {b : Nat} : ∀ {ps : List Per}, ps.Pairwise (fun p r => p.key + p.count ≤ r.key) → (∀ p ∈ ps, p.key + p.count ≤ b) →
    ∀ {a : Nat}, (∀ p ∈ ps, a ≤ p.key) → a ≤ b → a + counts ps ≤ b
  | [], _, _, a, _, hab => by simpa [counts] using hab
  | p :: ps, hs, hb, a, ha, _ => by
    rw [List.pairwise_cons] at hs
    have h1 := counts_le hs.2 (fun r hr => hb r (List.mem_cons_of_mem _ hr)) (a := p.key + p.count) (fun r hr => hs.1 r hr) (hb p (by simp))
    have h2 := ha p (by simp)
    rw [counts_cons]
    omega

theorem TlInv.count_le {mono : Bool} {q : Segs} (hq : Inv mono q.sl) {t : Tl} (h : TlInv q t) : counts t.periods ≤ hi q := by
  have := counts_le h.sorted (fun p hp => (h.good p hp).le_hi hq) (a := 0) (fun _ _ => Nat.zero_le _) (Nat.zero_le _)
  omega

/-! ## Removing -/

theorem sub64_ok {a b : Nat} (h : b ≤ a) : sub64 a b = a - b := if_pos h
theorem sub32_ok {a b : Nat} (h : b ≤ a) : SegmentList.sub32 a b = a - b := if_pos h

theorem pop_spec {mono : Bool} {q : Segs} (h : Inv mono q.sl) {p : Per} {d : Nat} {ds : List Nat} (hp : PerOk q p (d :: ds)) :
    ∃ it, pop q p = .ok (d, { p with count := ds.length, time := p.time + d, dur := ds.sum, key := p.key + 1, it }) ∧
      Span q it (p.key + 1) (p.time + d) ds := by
  obtain ⟨it, h1, h2⟩ := hp.span.getOne h
  have hc := hp.count
  have hd := hp.dur
  rw [List.length_cons] at hc
  rw [List.sum_cons] at hd
  refine ⟨it, ?_, h2⟩
  unfold pop
  rw [if_neg (by omega), h1]
  simp only [Res.bind_ok]
  rw [sub64_ok (by omega), show p.count - 1 = ds.length by omega, show p.dur - d = ds.sum by omega]

theorem findPer_at {A R : List Per} {p : Per} (h : (A ++ p :: R).Pairwise (fun p r => p.pid < r.pid)) :
    findPer (A ++ p :: R) p.pid = some (p, R.head?.map (·.pid)) := by
  induction A with
  | nil => simp [findPer]
  | cons a A ih =>
    rw [List.cons_append, List.pairwise_cons] at h
    have := h.1 p (by simp)
    rw [List.cons_append, findPer, if_neg (by omega)]
    exact ih h.2

/-- The segments that the manifest shows, with the numbers of their periods; `d` is the number of the first one. -/
def rowsFrom : Nat → List Per → List (Nat × Nat)
  | _, [] => []
  | d, p :: ps => (List.range' p.key p.count).map (·, d) ++ rowsFrom (d + 1) ps

/-- The periods behind a pointer. -/
def chain (ps : List Per) : Option Nat → List Per
  | none => []
  | some i => ps.dropWhile (fun p => p.pid ≠ i)

def shown (ps : List Per) (m : Man) : List Per := if m.segCount = 0 then [] else m.first :: chain ps m.next

def rows (ps : List Per) (m : Man) : List (Nat × Nat) := rowsFrom m.firstIdx (shown ps m)

theorem chain_at {A R : List Per} (h : (A ++ R).Pairwise (fun p r => p.pid < r.pid)) : chain (A ++ R) (R.head?.map (·.pid)) = R := by
  cases R with
  | nil => rfl
  | cons p R =>
    show (A ++ p :: R).dropWhile (fun r => decide (r.pid ≠ p.pid)) = p :: R
    induction A with
    | nil => simp
    | cons a A ih =>
      rw [List.cons_append, List.pairwise_cons] at h
      have := h.1 p (by simp)
      rw [List.cons_append, List.dropWhile_cons, if_pos (by simp; omega)]
      exact ih h.2

/-- The manifest is not empty: what is known about it. -/
structure Begins (q : Segs) (ps : List Per) (m : Man) (A : List Per) (p : Per) (R : List Per) (ds : List Nat) : Prop where
  hp : ps = A ++ p :: R
  hf : PerOk q m.first ds
  lo : p.key ≤ m.first.key
  hi : m.first.key + m.first.count = p.key + p.count
  nx : m.next = R.head?.map (·.pid)
  cs : m.segCount = m.first.count + counts R
  cp : m.perCount = 1 + R.length
  cd : m.dur = m.first.dur + durs R

theorem Begins.inv {q : Segs} {ps : List Per} {m : Man} {A : List Per} {p : Per} {R : List Per} {ds : List Nat} (h : Begins q ps m A p R ds) :
    ManInv q ps m := .some A p R ds h.hp h.hf h.lo h.hi h.nx h.cs h.cp h.cd

theorem Begins.pos {q : Segs} {ps : List Per} {m : Man} {A : List Per} {p : Per} {R : List Per} {ds : List Nat} (h : Begins q ps m A p R ds) :
    0 < m.segCount := by
  have := Good.pos ⟨ds, h.hf⟩
  have := h.cs
  omega

theorem ManInv.begins {q : Segs} {ps : List Per} {m : Man} (h : ManInv q ps m) (hc : 0 < m.segCount) : ∃ A p R ds, Begins q ps m A p R ds := by
  cases h with
  | empty e1 e2 e3 => omega
  | some A p R ds hp hf lo hi nx cs cp cd => exact ⟨A, p, R, ds, hp, hf, lo, hi, nx, cs, cp, cd⟩

theorem Begins.shown {q : Segs} {ps : List Per} {m : Man} {A : List Per} {p : Per} {R : List Per} {ds : List Nat} (h : Begins q ps m A p R ds)
    (hs : ps.Pairwise (fun p r => p.pid < r.pid)) : shown ps m = m.first :: R := by
  unfold Timeline.shown
  have := h.pos
  rw [if_neg (by omega), h.nx]
  have e : ps = (A ++ [p]) ++ R := by rw [h.hp]; simp
  rw [e] at hs ⊢
  rw [chain_at hs]

theorem range'_cons (a n : Nat) : List.range' a (n + 1) = a :: List.range' (a + 1) n := List.range'_succ

/-- What stays of the manifest besides its window. -/
structure Kept (m m' : Man) : Prop where
  conf : m'.conf = m.conf
  target : m'.target = m.target
  targetSegs : m'.targetSegs = m.targetSegs
  sequence : m'.sequence = m.sequence
  lastDurs : m'.lastDurs = m.lastDurs
  avail : m'.avail = m.avail

theorem Kept.refl (m : Man) : Kept m m := ⟨rfl, rfl, rfl, rfl, rfl, rfl⟩

theorem Kept.trans {a b c : Man} (h : Kept a b) (k : Kept b c) : Kept a c :=
  ⟨k.1.trans h.1, k.2.trans h.2, k.3.trans h.3, k.4.trans h.4, k.5.trans h.5, k.6.trans h.6⟩

/-- The first segment of the manifest is removed. -/
theorem manRemove_spec {mono : Bool} {q : Segs} (h : Inv mono q.sl) {ps : List Per} {m : Man} {now : Int} (hm : ManInv q ps m)
    (hc : 0 < m.segCount) (hg : ∀ p ∈ ps, Good q p) (hs : ps.Pairwise (fun p r => p.pid < r.pid)) (hb : m.firstIdx + m.perCount < 2 ^ 32) :
    ∃ m', manRemove q ps now m = .ok m' ∧ ManInv q ps m' ∧ m'.segCount + 1 = m.segCount ∧ rows ps m' = (rows ps m).tail ∧
      m'.firstIdx + m'.perCount = m.firstIdx + m.perCount ∧ Kept m m' ∧ m'.dur ≤ m.dur := by
  obtain ⟨A, p, R, ds, hB⟩ := hm.begins hc
  have hrows : rows ps m = rowsFrom m.firstIdx (m.first :: R) := by unfold rows; rw [hB.shown hs]
  obtain ⟨hp, hf, lo, hi, nx, cs, cp, cd⟩ := hB
  cases ds with
  | nil => exact absurd rfl hf.ne
  | cons d ds =>
    obtain ⟨it, h1, h2⟩ := pop_spec h hf
    have hc1 := hf.count
    have hd1 := hf.dur
    rw [List.length_cons] at hc1
    rw [List.sum_cons] at hd1
    unfold manRemove
    rw [h1]
    simp only [Res.bind_ok]
    have e1 : SegmentList.sub32 m.segCount 1 = m.segCount - 1 := sub32_ok (by omega)
    have e2 : sub64 m.dur d = m.dur - d := sub64_ok (by omega)
    have e3 : SegmentList.sub32 m.perCount 1 = m.perCount - 1 := sub32_ok (by omega)
    have e4 : SegmentList.add32 m.firstIdx 1 = m.firstIdx + 1 := SegmentList.add32_ok (by omega)
    rw [e1, e2, e3, e4]
    by_cases hz : ds = []
    · -- the period is over
      subst hz
      rw [if_neg (by simp)]
      have hc2 : m.first.count = 1 := hc1
      have ht : (rows ps m).tail = rowsFrom (m.firstIdx + 1) R := by
        rw [hrows, rowsFrom, hc2]
        rfl
      cases R with
      | nil =>
        rw [nx]
        have cp' : m.perCount = 1 := cp
        have cs' : m.segCount = 1 := by rw [cs, hc2]; rfl
        have cd' : m.dur = d := by rw [cd, hd1]; rfl
        refine ⟨_, rfl, .empty (by dsimp only; omega) (by dsimp only; omega) (by dsimp only; omega), by dsimp only; omega, ?_, by dsimp only; omega,
          ⟨rfl, rfl, rfl, rfl, rfl, rfl⟩, by dsimp only; omega⟩
        rw [ht]
        unfold rows Timeline.shown
        rw [if_pos (by dsimp only; omega)]
      | cons r R =>
        rw [nx]
        dsimp only [List.head?_cons, Option.map_some]
        have hp2 : ps = (A ++ [p]) ++ r :: R := by rw [hp]; simp
        have hf2 : findPer ps r.pid = some (r, R.head?.map (·.pid)) := by
          rw [hp2] at hs ⊢; exact findPer_at hs
        rw [hf2]
        dsimp only
        obtain ⟨ds', hr⟩ := hg r (by rw [hp2]; simp)
        rw [counts_cons] at cs
        rw [durs_cons] at cd
        rw [List.length_cons] at cp
        have hB' : Begins q ps { m with first := r, segCount := m.segCount - 1, dur := m.dur - d, lastMod := now, perCount := m.perCount - 1, firstIdx := m.firstIdx + 1, next := R.head?.map (·.pid), firstInitTime := r.time, firstInitIdx := r.key } (A ++ [p]) r R ds' :=
          ⟨hp2, hr, Nat.le_refl _, rfl, rfl, by dsimp only; omega, by dsimp only; omega, by dsimp only; simp at hd1; omega⟩
        refine ⟨_, rfl, hB'.inv, by dsimp only; omega, ?_, by dsimp only; omega, ⟨rfl, rfl, rfl, rfl, rfl, rfl⟩, by dsimp only; omega⟩
        unfold rows
        rw [hB'.shown hs]
        exact ht.symm
    · rw [if_pos (List.length_pos_iff.2 hz)]
      have hB' : Begins q ps { m with first := { m.first with count := ds.length, time := m.first.time + d, dur := ds.sum, key := m.first.key + 1, it }, segCount := m.segCount - 1, dur := m.dur - d, lastMod := now } A p R ds :=
        ⟨hp, ⟨h2, rfl, rfl, hz⟩, by dsimp only; omega, by dsimp only; omega, nx, by dsimp only; omega, cp, by dsimp only; omega⟩
      refine ⟨_, rfl, hB'.inv, by dsimp only; omega, ?_, rfl, ⟨rfl, rfl, rfl, rfl, rfl, rfl⟩, by dsimp only; omega⟩
      rw [hrows]
      unfold rows
      rw [hB'.shown hs, rowsFrom, rowsFrom]
      dsimp only
      rw [hc1, range'_cons]
      rfl

end Verif.Timeline
