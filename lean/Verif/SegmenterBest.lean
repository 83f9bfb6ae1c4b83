import Verif.Segmenter
import Verif.SegmenterBestSpec

/-!
# The segmenter: where segments end
-/

namespace Verif.Segmenter

open Verif.SegmenterBestSpec

/-- The candidates with their spans. -/
def opts (cs : List Cand) (spans : List (Int × Int)) : List Opt := List.zipWith (fun c s => ⟨c.pts, s.1, s.2⟩) cs spans

theorem absDiff_natAbs (a b : Int) : absDiff a b = (a - b).natAbs := by
  unfold absDiff
  split <;> omega

theorem choose_best (g : Cfg) (b m : Int) : ∀ (cs : List Cand) (spans : List (Int × Int)) (t : Int), (∀ o ∈ opts cs spans, o.time g.maxSpan ≠ invalid) →
    (choose g b m cs spans t = t ∨ ∃ o ∈ opts cs spans, o.hi - o.lo ≤ m ∧ choose g b m cs spans t = o.time g.maxSpan) ∧
    (t ≠ invalid → (choose g b m cs spans t - b).natAbs ≤ (t - b).natAbs) ∧
    (∀ o ∈ opts cs spans, o.hi - o.lo ≤ m → (choose g b m cs spans t - b).natAbs ≤ (o.time g.maxSpan - b).natAbs)
  | [], spans, t, _ => by
    have : opts [] spans = [] := by cases spans <;> rfl
    rw [this, show choose g b m [] spans t = t by cases spans <;> rfl]
    exact ⟨Or.inl rfl, fun _ => Nat.le_refl _, fun o ho => by cases ho⟩
  | c :: cs, [], t, _ => by
    rw [show choose g b m (c :: cs) [] t = t by rfl]
    exact ⟨Or.inl rfl, fun _ => Nat.le_refl _, fun o ho => by cases ho⟩
  | c :: cs, (lo, hi) :: spans, t, h => by
    have hop : opts (c :: cs) ((lo, hi) :: spans) = ⟨c.pts, lo, hi⟩ :: opts cs spans := rfl
    rw [hop] at h ⊢
    have h0 := h ⟨c.pts, lo, hi⟩ (by simp)
    have ih := fun t => choose_best g b m cs spans t (fun o ho => h o (by simp [ho]))
    rw [choose]
    by_cases hm : hi - lo > m
    · rw [if_pos hm]
      obtain ⟨i1, i2, i3⟩ := ih t
      refine ⟨?_, i2, ?_⟩
      · rcases i1 with i1 | ⟨o, ho, i1⟩
        · exact Or.inl i1
        · exact Or.inr ⟨o, by simp [ho], i1⟩
      · intro o ho hs
        rcases List.mem_cons.1 ho with rfl | ho
        · simp only [] at hs; omega
        · exact i3 o ho hs
    · rw [if_neg hm]
      obtain ⟨v, hv⟩ : ∃ v, v = Opt.time g.maxSpan ⟨c.pts, lo, hi⟩ := ⟨_, rfl⟩
      have hv' : (if hi - lo < g.maxSpan then (hi + lo).tdiv 2 else c.pts) = v := hv.symm
      simp only []
      rw [hv']
      rw [← hv] at h0
      by_cases hc : t = invalid ∨ absDiff v b < absDiff t b
      · rw [if_pos hc]
        obtain ⟨i1, i2, i3⟩ := ih v
        have i2 := i2 h0
        refine ⟨Or.inr ?_, ?_, ?_⟩
        · rcases i1 with i1 | ⟨o, ho, i1⟩
          · exact ⟨_, List.mem_cons_self, by simp only []; omega, by rw [i1, hv]⟩
          · exact ⟨o, by simp [ho], i1⟩
        · intro ht
          rcases hc with hc | hc
          · exact absurd hc ht
          · rw [absDiff_natAbs, absDiff_natAbs] at hc; omega
        · intro o ho hs
          rcases List.mem_cons.1 ho with rfl | ho
          · rw [← hv]; exact i2
          · exact i3 o ho hs
      · rw [if_neg hc]
        obtain ⟨i1, i2, i3⟩ := ih t
        have ht : t ≠ invalid := fun hh => hc (Or.inl hh)
        have hle : ¬ absDiff v b < absDiff t b := fun hh => hc (Or.inr hh)
        rw [absDiff_natAbs, absDiff_natAbs] at hle
        have i2' := i2 ht
        refine ⟨?_, i2, ?_⟩
        · rcases i1 with i1 | ⟨o, ho, i1⟩
          · exact Or.inl i1
          · exact Or.inr ⟨o, by simp [ho], i1⟩
        · intro o ho hs
          rcases List.mem_cons.1 ho with rfl | ho
          · rw [← hv]; omega
          · exact i3 o ho hs

def least (m : Int) (s : Int × Int) : Int := if s.2 - s.1 < m then s.2 - s.1 else m

theorem least_spec : ∀ (l : List (Int × Int)) (m : Int), (l.foldl least m = m ∨ ∃ s ∈ l, l.foldl least m = s.2 - s.1) ∧ l.foldl least m ≤ m ∧ ∀ s ∈ l, l.foldl least m ≤ s.2 - s.1
  | [], m => ⟨Or.inl rfl, Int.le_refl _, fun s hs => by cases hs⟩
  | s :: l, m => by
    obtain ⟨i1, i2, i3⟩ := least_spec l (least m s)
    rw [List.foldl_cons]
    have hl : (least m s = m ∨ least m s = s.2 - s.1) ∧ least m s ≤ m ∧ least m s ≤ s.2 - s.1 := by
      unfold least
      split
      · exact ⟨Or.inr rfl, by omega, by omega⟩
      · exact ⟨Or.inl rfl, by omega, by omega⟩
    refine ⟨?_, by omega, ?_⟩
    · rcases i1 with i1 | ⟨r, hr, i1⟩
      · rcases hl.1 with h | h
        · left; rw [i1, h]
        · right; exact ⟨s, by simp, by rw [i1, h]⟩
      · right; exact ⟨r, by simp [hr], i1⟩
    · intro r hr
      rcases List.mem_cons.1 hr with rfl | hr
      · omega
      · exact i3 r hr

theorem getSpan_len (c : Ctx) (cs : List Cand) : ∀ (ts : List Track) (spans : List (Int × Int)), (getSpan c cs ts spans).length ≤ spans.length
  | [], spans => by unfold getSpan; exact Nat.le_refl _
  | t :: ts, spans => by
    unfold getSpan
    split
    · exact Nat.le_refl _
    · split
      · exact getSpan_len c cs ts spans
      · refine Nat.le_trans (getSpan_len c cs ts _) ?_
        rw [List.length_zipWith]
        omega

theorem opts_span : ∀ (cs : List Cand) (spans : List (Int × Int)), spans.length ≤ cs.length → ∀ s ∈ spans, ∃ o ∈ opts cs spans, o.lo = s.1 ∧ o.hi = s.2
  | _, [], _, s, hs => by cases hs
  | [], _ :: _, h, _, _ => by simp at h
  | c :: cs, p :: spans, h, s, hs => by
    rcases List.mem_cons.1 hs with rfl | hs
    · exact ⟨⟨c.pts, s.1, s.2⟩, List.mem_cons_self, rfl, rfl⟩
    · obtain ⟨o, ho, h1⟩ := opts_span cs spans (by simpa using h) s hs
      exact ⟨o, List.mem_cons_of_mem _ ho, h1⟩

theorem span_opts : ∀ (cs : List Cand) (spans : List (Int × Int)), ∀ o ∈ opts cs spans, ∃ s ∈ spans, o.lo = s.1 ∧ o.hi = s.2
  | [], spans, o, ho => by cases spans <;> cases ho
  | _ :: _, [], _, ho => by cases ho
  | c :: cs, p :: spans, o, ho => by
    rcases List.mem_cons.1 ho with rfl | ho
    · exact ⟨p, by simp, rfl, rfl⟩
    · obtain ⟨s, hs, h1⟩ := span_opts cs spans o ho
      exact ⟨s, by simp [hs], h1⟩

/-- The candidates of a segment, with the spans over all tracks. -/
def segOpts (g : Cfg) (c : Ctx) (ts : List Track) (start : Int) : List Opt :=
  opts (getCands g c start ts).1 (getSpan c (getCands g c start ts).1 ts ((getCands g c start ts).1.map fun x => (x.pts, x.pts)))

/-- C133: a segment ends at a best time, or after the least duration if that is later. Times are real ones, not the mark of times that are not known. -/
theorem ends_best {g : Cfg} {c : Ctx} {ts : List Track} {minPts start stop split : Int} (h : segTimes g c ts minPts = .ok (start, stop, split))
    (hv : ∀ o ∈ segOpts g c ts start, o.time g.maxSpan ≠ invalid ∧ o.hi - o.lo ≤ invalid) :
    start = (if minPts > c.lastEnd + (if c.force then 0 else g.fwdSkip) then minPts else c.lastEnd) ∧
    (((getCands g c start ts).1 = [] ∧ stop = start + g.segDur) ∨
     ∃ t, Best (segOpts g c ts start) g.alignMargin g.maxSpan (start + g.segDur) t ∧ stop = max t (start + g.minDur)) := by
  unfold segTimes at h
  simp only [] at h
  obtain ⟨st, hst⟩ : ∃ st : Int, st = (if minPts > c.lastEnd + ((if c.force = true then 0 else g.fwdSkip : Nat) : Int) then minPts else c.lastEnd) := ⟨_, rfl⟩
  rw [← hst] at h
  rcases hgc : getCands g c st ts with ⟨cs, ms⟩
  rw [hgc] at h
  simp only [] at h
  by_cases h0 : cs = []
  · rw [if_pos h0] at h
    cases h
    refine ⟨hst, Or.inl ⟨by rw [hgc]; exact h0, rfl⟩⟩
  · rw [if_neg h0] at h
    obtain ⟨spans, hsp⟩ : ∃ spans, spans = getSpan c cs ts (cs.map fun x => (x.pts, x.pts)) := ⟨_, rfl⟩
    rw [← hsp] at h
    have hlen : spans.length ≤ cs.length := by
      rw [hsp]
      refine Nat.le_trans (getSpan_len c cs ts _) ?_
      rw [List.length_map]
      exact Nat.le_refl _
    obtain ⟨m, hm⟩ : ∃ m, m = spans.foldl least invalid + g.alignMargin := ⟨_, rfl⟩
    have hm' : spans.foldl (fun m s => if s.2 - s.1 < m then s.2 - s.1 else m) invalid + g.alignMargin = m := hm.symm
    rw [hm'] at h
    obtain ⟨t, ht⟩ : ∃ t, t = choose g (st + g.segDur) m cs spans invalid := ⟨_, rfl⟩
    rw [← ht] at h
    by_cases hti : t = invalid
    · rw [if_pos hti] at h
      cases h
    · rw [if_neg hti] at h
      cases h
      refine ⟨hst, Or.inr ⟨t, ?_, by split <;> omega⟩⟩
      have hso : segOpts g c ts start = opts cs spans := by unfold segOpts; rw [hgc, hsp]
      rw [hso] at hv ⊢
      obtain ⟨b1, -, b3⟩ := choose_best g (start + g.segDur) m cs spans invalid (fun o ho => (hv o ho).1)
      obtain ⟨l1, l2, l3⟩ := least_spec spans invalid
      rw [← ht] at b1 b3
      -- the spans that count
      have hcount : ∀ o ∈ opts cs spans, (o.hi - o.lo ≤ m ↔ Counts (opts cs spans) g.alignMargin o) := by
        intro o ho
        constructor
        · intro hle y hy
          obtain ⟨r, hr, r1, r2⟩ := span_opts cs spans y hy
          have := l3 r hr
          omega
        · intro hc
          rcases l1 with l1 | ⟨r, hr, l1⟩
          · have := (hv o ho).2
            omega
          · obtain ⟨y, hy, y1, y2⟩ := opts_span cs spans hlen r hr
            have := hc y hy
            omega
      refine ⟨?_, fun o ho hc => b3 o ho ((hcount o ho).2 hc)⟩
      rcases b1 with b1 | ⟨o, ho, b1, b2⟩
      · exact absurd b1 hti
      · exact ⟨o, ho, (hcount o ho).1 b1, b2⟩

end Verif.Segmenter
