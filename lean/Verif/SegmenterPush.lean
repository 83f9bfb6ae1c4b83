import Verif.SegmenterInv

/-!
# Arrival of frames, and the validator
-/

namespace Verif.Segmenter

theorem keyIdx_head {fs : List Frame} (h : fs = [] → False) (hv : ∀ f ∈ fs.head?, f.i.key = true) : fs.any (·.i.key) = true := by
  cases fs with
  | nil => exact (h rfl).elim
  | cons f fs => rw [List.any_cons, hv f rfl]; rfl

theorem splits_push (fs : List Frame) (f : Frame) (h : fs ≠ []) : splits (fs ++ [f]) = splits fs + if f.split then 1 else 0 := by
  cases fs with
  | nil => exact absurd rfl h
  | cons g fs =>
    simp [splits, List.countP_append, List.countP_cons]

/-- What the arrival of a frame leaves as it was. -/
structure Pushed (i : In) (t t' : Track) : Prop where
  media : t'.media = t.media
  filler : t'.filler = t.filler
  hasLast : t'.hasLast = t.hasLast
  copyIndex : t'.copyIndex = t.copyIndex
  removeIndex : t'.removeIndex = t.removeIndex
  state : t'.state = t.state
  ins : t'.fs.map (·.i) = t.fs.map (·.i) ++ [i]
  log : t'.log = t.log ++ [.acc i]
  nextId : t'.nextId = t.nextId
  shift : t'.shift = t.shift

theorem pushFrame_ok (g : Cfg) {t : Track} (h : TInv t) (i : In) (hp : i.pts < invalid) (hc : t.frameCount < frameMax)
    (hk : t.media = .video → t.frameCount = 0 → i.key = true) : TInv (pushFrame g t i) ∧ Pushed i t (pushFrame g t i) := by
  obtain ⟨f, hf⟩ : ∃ f, newFrame g t i = f := ⟨_, rfl⟩
  have hfi : f.i = i := by
    rw [← hf]; unfold newFrame
    split <;> rfl
  have hst : starts t i = anchor t.media f := by unfold starts anchor; rw [hfi]
  have hfs : f.split = true → anchor t.media f = true := by
    rw [← hst, ← hf]; unfold newFrame
    split
    · intro _; assumption
    · intro h; exact absurd h (by simp)
  obtain ⟨h1, h2⟩ := push_ok (n := framePart) (by decide) f h.parts
  have hcount := h.count
  obtain ⟨fs, efs⟩ : ∃ fs, t.fs = fs := ⟨_, rfl⟩
  have e2 : (pushPart framePart f t.parts).flatten = fs ++ [f] := by rw [h2, ← efs]; rfl
  unfold pushFrame
  simp only [hf, hst]
  refine ⟨⟨h1, ?_, ?_, ?_, ?_, ?_, ?_, ?_, ?_, ?_, ?_, ?_, ?_, ?_⟩, rfl, rfl, rfl, rfl, rfl, rfl, ?_, rfl, rfl, rfl⟩ <;>
    (try simp only [Track.fs, e2])
  · split
    · exact (push_ok (by decide) _ h.kparts).1
    · exact h.kparts
  · simp only [hcount, efs, List.length_append, List.length_cons, List.length_nil]
  · rw [hcount, efs] at hc
    simp; omega
  · intro x hx
    rw [efs] at hcount
    cases fs with
    | nil =>
      simp at hx hcount
      subst hx
      rw [if_pos hcount, hfi]
    | cons y fs =>
      simp at hx hcount
      subst hx
      rw [if_neg (by omega)]
      have := h.start
      rw [efs] at this
      exact this y rfl
  · intro x hx
    simp at hx
    subst hx
    rw [hfi]
  · intro x hx
    have := h.head
    rw [efs] at this hcount
    cases fs with
    | nil =>
      simp at hx hcount
      subst hx
      by_cases hv : t.media = .video
      · simp [anchor, hfi, hk hv hcount]
      · simp [anchor, hv]
    | cons y fs =>
      simp at hx
      subst hx
      exact this y rfl
  · intro x hx
    rcases List.mem_append.1 hx with hx | hx
    · exact h.split x (by rw [efs]; exact hx)
    · simp at hx
      subst hx
      exact hfs
  · intro x hx
    rcases List.mem_append.1 hx with hx | hx
    · exact h.pts x (by rw [efs]; exact hx)
    · simp at hx
      subst hx
      rw [hfi]; exact hp
  · intro _
    rw [anchorPts_push, hfi]
    split
    · rfl
    · rename_i ha
      rw [efs] at hcount
      cases fs with
      | nil =>
        simp at hcount
        exfalso
        apply ha
        by_cases hv : t.media = .video
        · simp [anchor, hfi, hk hv hcount]
        · simp [anchor, hv]
      | cons y fs =>
        rw [← efs]
        exact h.keyPts (by rw [efs]; simp)
  · have hkf := h.kfs
    by_cases hv : t.media = .video
    · rw [if_pos hv] at hkf ⊢
      rw [efs] at hkf
      cases hkey : f.i.key with
      | true =>
        have ha : anchor t.media f = true := by simp [anchor, hkey]
        have hl := h.last
        rw [efs] at hl hcount
        simp only [Track.ks]
        rw [if_pos ⟨hv, ha⟩, if_pos ⟨hv, ha⟩, (push_ok (by decide) _ h.kparts).2]
        refine ⟨?_, by rw [keyIdx_push_key _ _ hkey, hcount]⟩
        refine kfOk_push_key fs 0 none t.ks f _ hkey hkf.1 (by rw [hfi]) rfl rfl ?_ ?_
        · cases hlast : fs.getLast? with
          | none => simp
          | some l => exact hl l hlast
        · cases fs with
          | nil => simp [hcount]
          | cons y fs =>
            have hy := h.head
            rw [efs] at hy
            rw [if_pos (keyIdx_head (by simp) (fun z hz => by have := hy z hz; simpa [anchor, hv] using this))]
            simp only
            rw [hcount, hkf.2]
      | false =>
        have ha : anchor t.media f = false := by simp [anchor, hkey, hv]
        simp only [Track.ks, ha]
        simp only [Bool.false_eq_true, and_false, if_false]
        exact ⟨kfOk_push _ _ _ _ _ hkey hkf.1, by rw [keyIdx_push _ _ hkey]; exact hkf.2⟩
    · rw [if_neg hv] at hkf ⊢
      simp only [Track.ks, hv, false_and, if_false]
      exact hkf
  · have hpend := h.pending
    have hl := h.last
    rw [efs] at hpend hcount hl
    cases fs with
    | nil =>
      simp at hcount hpend
      have ha : anchor t.media f = true := by
        by_cases hv : t.media = .video
        · simp [anchor, hfi, hk hv hcount]
        · simp [anchor, hv]
      simp [hcount, ha, hpend, gaps, hfi]
    | cons y fs =>
      simp only [List.length_cons] at hcount
      obtain ⟨l, hlast⟩ : ∃ l, (y :: fs).getLast? = some l := ⟨_, List.getLast?_eq_some_getLast (by simp)⟩
      have e3 := hl l hlast
      simp only [List.cons_append]
      rw [gaps_push fs y f l hlast, hfi]
      simp only at hpend
      cases ha : anchor t.media f with
      | true =>
        rw [if_pos ⟨rfl, by omega⟩, if_pos rfl]
        cases hs : f.split with
        | true => simp only [if_true]; omega
        | false => simp only [Bool.false_eq_true, if_false]; omega
      | false =>
        have hs : f.split = false := by
          cases hs : f.split with
          | false => rfl
          | true => rw [hfs hs] at ha; cases ha
        rw [hs]
        simp only [Bool.false_eq_true, false_and, if_false]
        omega
  · have hs := h.splitCount
    rw [efs] at hs hcount
    cases fs with
    | nil =>
      simp at hcount
      simp [hcount, hs, splits]
    | cons y fs =>
      rw [splits_push _ _ (by simp), hs]
      simp only [List.length_cons] at hcount
      cases f.split with
      | true => simp; omega
      | false => simp
  · have hs := h.minSplit
    have hl := h.last
    have hpts := h.pts
    rw [efs] at hs hcount hl hpts
    cases fs with
    | nil =>
      simp at hcount
      simp [hcount, hs, getMinSplit, minSplitLoop]
    | cons y fs =>
      obtain ⟨l, hlast⟩ : ∃ l, (y :: fs).getLast? = some l := ⟨_, List.getLast?_eq_some_getLast (by simp)⟩
      rw [List.cons_append, getMinSplit, minSplitLoop_push fs y.i.pts f l (fun q hq => hpts q (List.mem_cons_of_mem _ hq)) (hpts y (by simp))]
      · simp only [List.length_cons] at hcount
        rw [hs, getMinSplit, hl l hlast]
        have : t.frameCount > 0 := by omega
        simp [this]
      · cases fs with
        | nil => simp at hlast; simp [hlast]
        | cons z fs =>
          rw [List.getLast?_cons_cons] at hlast
          rw [hlast]
  · rw [show t.parts.flatten = t.fs from rfl, efs]
    simp [hfi]

theorem removeAll_ok {c : Ctx} {xs ys : List Track} {t : Track} (hb : Bal c (xs ++ t :: ys)) :
    ∃ c' t', removeAll c t = .ok (c', t') ∧ Bal c' (xs ++ t' :: ys) ∧ c.same c' ∧ TInv t' ∧ t'.media = t.media ∧ t'.fs = [] ∧
      t'.log = t.log ++ [.reset (t.fs.map (·.i))] ∧ t'.nextId = t.nextId ∧ t'.shift = t.shift ∧ t'.hasLast = t.hasLast := by
  unfold removeAll
  simp only
  have key : ∀ s, TInv ({ t with
      log := t.log ++ [.reset (t.fs.map (·.i))], parts := [[]], kparts := [[]], lastKey := 0
      frameCount := 0, splitCount := 0, pending := 0, minSplit := invalid, state := s } : Track) := by
    intro s
    refine ⟨⟨by simp, by simp, by simp⟩, ⟨by simp, by simp, by simp⟩, rfl, by simp [Track.fs], by simp [Track.fs], by simp [Track.fs],
      by simp [Track.fs], by simp [Track.fs], by simp [Track.fs], by simp [Track.fs], ?_, rfl, rfl, rfl⟩
    split
    · refine ⟨?_, rfl⟩
      unfold KfOk
      rfl
    · exact ⟨rfl, rfl⟩
  split
  · have hb' := bal_congr (t' := { t with
      log := t.log ++ [.reset (t.fs.map (·.i))], parts := [[]], kparts := [[]], lastKey := 0
      frameCount := 0, splitCount := 0, pending := 0, minSplit := invalid }) hb rfl
    obtain ⟨c', e1, e2, e3⟩ := setState_ok hb' .pending
    exact ⟨c', _, e1, e2, e3, key _, rfl, rfl, rfl, rfl, rfl, rfl⟩
  · exact ⟨c, _, rfl, bal_congr hb rfl, c.same_refl, key _, rfl, rfl, rfl, rfl, rfl, rfl⟩

theorem tinv_state {t : Track} (h : TInv t) (s : TState) : TInv { t with state := s } :=
  ⟨h.parts, h.kparts, h.count, h.le, h.start, h.last, h.head, h.split, h.pts, h.keyPts, h.kfs, h.pending, h.splitCount, h.minSplit⟩

end Verif.Segmenter
