import Verif.SegmenterPush

/-!
# The validator of debug builds accepts the tracks that meet the invariant
-/

namespace Verif.Segmenter

/-- The state of the validator after at least one frame; `p` is the last frame that it read, `fs` are the frames to read. -/
structure VOk (m : Media) (p : Frame) (fs : List Frame) (s : Vst) : Prop where
  index : 0 < s.index
  prev : s.prev = p.i.pts
  kfs : if m = .video then KfOk (s.index - s.lastKey) (some s.prev) fs s.ks ∧ s.firstKf = false ∧ s.lastKey ≤ s.index
    else s.ks = []
  ok : s.ok = true

theorem lastPts_cons (p f : Frame) (fs : List Frame) (l : Frame) (h : (f :: fs).getLast? = some l) : (p :: f :: fs).getLast? = some l := by
  rw [List.getLast?_cons_cons]; exact h

def Vst.tick (s : Vst) (f : Frame) : Vst :=
  let s := if f.split ∧ s.index > 0 then
      { s with splitCount := s.splitCount + 1, minSplit := if s.minSplit = invalid then s.prev else s.minSplit }
    else s
  { s with prev := f.i.pts, index := s.index + 1 }

theorem validateLoop_cons (m : Media) (f : Frame) (fs : List Frame) (s : Vst) :
    validateLoop m (f :: fs) s = validateLoop m fs ((s.key m f).tick f) := rfl

theorem tick_same (s : Vst) (f : Frame) : (s.tick f).ks = s.ks ∧ (s.tick f).firstKf = s.firstKf ∧ (s.tick f).index = s.index + 1 ∧
    (s.tick f).lastKey = s.lastKey ∧ (s.tick f).prev = f.i.pts ∧ (s.tick f).lastKeyPts = s.lastKeyPts ∧ (s.tick f).pending = s.pending ∧
    (s.tick f).ok = s.ok := by
  unfold Vst.tick
  split <;> exact ⟨rfl, rfl, rfl, rfl, rfl, rfl, rfl, rfl⟩

theorem tick_split (s : Vst) (f : Frame) (h : 0 < s.index) : (s.tick f).splitCount = s.splitCount + (if f.split then 1 else 0) ∧
    (s.tick f).minSplit = if f.split ∧ s.minSplit = invalid then s.prev else s.minSplit := by
  unfold Vst.tick
  simp only [h, and_true]
  cases hf : f.split with
  | true =>
    simp only [if_true, true_and]
  | false => simp

/-- What the validator has after the loop. -/
structure VEnd (m : Media) (p : Frame) (fs : List Frame) (s s' : Vst) : Prop where
  ok : s'.ok = true
  ks : s'.ks = []
  index : s'.index = s.index + fs.length
  splitCount : s'.splitCount = s.splitCount + fs.countP (·.split)
  minSplit : s'.minSplit = if s.minSplit = invalid then minSplitLoop s.prev fs else s.minSplit
  prev : ∀ l, (p :: fs).getLast? = some l → s'.prev = l.i.pts
  keyPts : s'.lastKeyPts = anchorPts m fs s.lastKeyPts
  pending : s'.pending = s.pending + s'.lastKeyPts - s.lastKeyPts - gaps p fs
  lastKey : s'.lastKey = if m = .video ∧ fs.any (·.i.key) then s.index + keyIdx fs else s.lastKey

theorem key_same (m : Media) (s : Vst) (f : Frame) : (s.key m f).index = s.index ∧ (s.key m f).prev = s.prev ∧
    (s.key m f).splitCount = s.splitCount ∧ (s.key m f).minSplit = s.minSplit := by
  unfold Vst.key
  split
  · simp only
    split
    · split <;> exact ⟨rfl, rfl, rfl, rfl⟩
    · exact ⟨rfl, rfl, rfl, rfl⟩
  · exact ⟨rfl, rfl, rfl, rfl⟩

theorem key_pts (m : Media) (s : Vst) (f : Frame) : (s.key m f).lastKeyPts = (if anchor m f then f.i.pts else s.lastKeyPts) ∧
    (s.key m f).pending =
      if anchor m f ∧ s.index > 0 then s.pending + ((if f.split then s.prev else f.i.pts) - s.lastKeyPts) else s.pending := by
  have ha : anchor m f = true ↔ (m ≠ .video ∨ f.i.key = true) := by simp [anchor]
  unfold Vst.key
  by_cases h : m ≠ .video ∨ f.i.key = true
  · rw [if_pos h, if_pos (ha.2 h)]
    simp only [ha.2 h, true_and]
    split
    · split <;> exact ⟨rfl, rfl⟩
    · exact ⟨rfl, rfl⟩
  · rw [if_neg h, if_neg (fun h' => h (ha.1 h')), if_neg (fun h' => h (ha.1 h'.1))]
    exact ⟨rfl, rfl⟩

theorem validateLoop_ok (m : Media) : ∀ (fs : List Frame) (p : Frame) (s : Vst), VOk m p fs s →
    (∀ f ∈ fs, f.split = true → anchor m f = true) → p.i.pts < invalid → (∀ f ∈ fs, f.i.pts < invalid) →
    VEnd m p fs s (validateLoop m fs s) := by
  intro fs
  induction fs with
  | nil =>
    intro p s h _ hp _
    have hkf := h.kfs
    refine ⟨h.ok, ?_, by simp [validateLoop], by simp [validateLoop], ?_, ?_, rfl, ?_, ?_⟩
    · split at hkf
      · have := hkf.1
        unfold KfOk at this
        exact this
      · exact hkf
    · simp only [validateLoop, minSplitLoop]
      split
      · assumption
      · rfl
    · intro l hl
      simp at hl
      subst hl
      exact h.prev
    · simp only [validateLoop, gaps]; omega
    · simp [validateLoop]
  | cons f fs ih =>
    intro p s h hsp hp hpts
    rw [validateLoop_cons]
    obtain ⟨k1, k2, k3, k4⟩ := key_same m s f
    obtain ⟨k5, k6⟩ := key_pts m s f
    obtain ⟨t1, t2, t3, t4, t5, t6, t7, t8⟩ := tick_same (s.key m f) f
    obtain ⟨t9, t10⟩ := tick_split (s.key m f) f (by rw [k1]; exact h.index)
    have hstep : VOk m f fs ((s.key m f).tick f) ∧
        ((s.key m f).tick f).lastKey = if m = .video ∧ f.i.key then s.index else s.lastKey := by
      have hkf := h.kfs
      rw [t4]
      by_cases hv : m = .video
      · rw [if_pos hv] at hkf
        cases hk : f.i.key with
        | true =>
          obtain ⟨hkf1, hkf2, hkf3⟩ := hkf
          rw [kfOk_cons, if_pos hk] at hkf1
          cases hks : s.ks with
          | nil => rw [hks] at hkf1; exact hkf1.elim
          | cons k ks =>
            rw [hks] at hkf1
            simp only at hkf1
            obtain ⟨a1, a2, a3, a4, a5, a6⟩ := hkf1
            have e : (s.key m f).ok = true ∧ (s.key m f).ks = ks ∧ (s.key m f).firstKf = false ∧ (s.key m f).lastKey = s.index := by
              unfold Vst.key
              rw [if_pos (.inr hk)]
              simp only [if_pos hv, hks, h.ok, a1, a3, a4, a5, hkf2, a2 s.prev rfl]
              simp
            obtain ⟨e1, e2, e3, e4⟩ := e
            refine ⟨⟨by omega, t5, ?_, by rw [t8, e1]⟩, by rw [e4]; simp [hv]⟩
            rw [if_pos hv, t1, t2, t3, t4, e2, e3, e4, k1, t5]
            refine ⟨?_, rfl, by omega⟩
            rw [show s.index + 1 - s.index = 1 by omega]
            exact a6
        | false =>
          have e : s.key m f = s := by
            unfold Vst.key
            rw [if_neg (by simp [hv, hk])]
          rw [e] at t1 t2 t3 t4 t5 t8 ⊢
          refine ⟨⟨by omega, t5, ?_, by rw [t8, h.ok]⟩, by simp⟩
          rw [if_pos hv, t1, t2, t3, t4, t5]
          obtain ⟨hkf1, hkf2, hkf3⟩ := hkf
          rw [kfOk_cons, if_neg (by simp [hk])] at hkf1
          refine ⟨?_, hkf2, by omega⟩
          rw [show s.index + 1 - s.lastKey = s.index - s.lastKey + 1 by omega]
          exact hkf1
      · rw [if_neg hv] at hkf
        have e : (s.key m f).ok = s.ok ∧ (s.key m f).ks = s.ks ∧ (s.key m f).lastKey = s.lastKey := by
          unfold Vst.key
          rw [if_pos (.inl hv)]
          simp only [if_neg hv]
          exact ⟨trivial, trivial, trivial⟩
        refine ⟨⟨by omega, t5, ?_, by rw [t8, e.1, h.ok]⟩, by rw [e.2.2]; simp [hv]⟩
        rw [if_neg hv, t1, e.2.1, hkf]
    obtain ⟨hv1, hv2⟩ := hstep
    have := ih f _ hv1 (fun x hx => hsp x (List.mem_cons_of_mem _ hx)) (hpts f (by simp)) (fun x hx => hpts x (List.mem_cons_of_mem _ hx))
    refine ⟨this.ok, this.ks, ?_, ?_, ?_, ?_, ?_, ?_, ?_⟩
    · rw [this.index, t3, k1, List.length_cons]; omega
    · rw [this.splitCount, t9, k3, List.countP_cons]; omega
    · rw [this.minSplit, t10, t5, k4, k2, h.prev, minSplitLoop]
      cases f.split with
      | false => simp
      | true =>
        simp only [true_and, if_true]
        by_cases hm : s.minSplit = invalid
        · rw [if_pos hm, if_neg (by omega)]
        · rw [if_neg hm, if_neg hm]
    · intro l hl
      rw [List.getLast?_cons_cons] at hl
      exact this.prev l hl
    · rw [this.keyPts, t6, k5, anchorPts]
    · rw [this.pending, t6, t7, k5, k6, gaps]
      have hi := h.index
      have hpr := h.prev
      have hsf := hsp f (by simp)
      cases ha : anchor m f with
      | true =>
        rw [if_pos ⟨rfl, hi⟩, if_pos rfl]
        cases f.split with
        | true => simp only [if_true]; omega
        | false => simp only [Bool.false_eq_true, if_false]; omega
      | false =>
        have hs : f.split = false := by
          cases hs : f.split with
          | false => rfl
          | true => rw [hsf hs] at ha; cases ha
        rw [hs]
        simp only [Bool.false_eq_true, false_and, if_false]
        omega
    · rw [this.lastKey, hv2, t3, k1, keyIdx, List.any_cons]
      by_cases hv : m = .video
      · cases hany : fs.any (·.i.key) with
        | true => simp [hv]; omega
        | false => cases f.i.key <;> simp [hv]
      · simp [hv]

/-- The validator of debug builds is silent. -/
theorem validate_of_inv {t : Track} (h : TInv t) : validate t = true := by
  have hc := h.count
  have h1 := h.start
  have h2 := h.last
  have h3 := h.head
  have h4 := h.split
  have h5 := h.pts
  have h6 := h.keyPts
  have h7 := h.kfs
  have h8 := h.pending
  have h9 := h.splitCount
  have h10 := h.minSplit
  unfold validate
  cases hfs : t.fs with
  | nil =>
    rw [hfs] at hc h7 h8 h9 h10
    have hk : t.ks = [] ∧ t.lastKey = 0 := by
      split at h7
      · refine ⟨?_, h7.2⟩
        have := h7.1
        unfold KfOk at this
        exact this
      · exact h7
    simp [hc, h8, h9, h10, hk.1, hk.2, splits, getMinSplit]
  | cons f fs =>
    rw [hfs] at hc h1 h2 h3 h4 h5 h6 h7 h8 h9 h10
    have ha := h3 f rfl
    simp only
    rw [validateLoop_cons]
    have hstep : VOk t.media f fs ((Vst.key t.media { ks := t.ks } f).tick f) ∧
        ((Vst.key t.media { ks := t.ks } f).tick f).lastKey = 0 := by
      obtain ⟨t1, t2, t3, t4, t5, t6, t7, t8⟩ := tick_same (Vst.key t.media { ks := t.ks } f) f
      have hi := (key_same t.media { ks := t.ks } f).1
      by_cases hv : t.media = .video
      · rw [if_pos hv] at h7
        have hk : f.i.key = true := by simpa [anchor, hv] using ha
        have h7' := h7.1
        rw [kfOk_cons, if_pos hk] at h7'
        cases hks : t.ks with
        | nil => rw [hks] at h7'; exact h7'.elim
        | cons k ks =>
          rw [hks] at h7' t1 t2 t3 t4 t5 t6 t7 t8 hi
          simp only at h7'
          obtain ⟨a1, a2, a3, a4, a5, a6⟩ := h7'
          have e : (Vst.key t.media { ks := k :: ks } f).ok = true ∧ (Vst.key t.media { ks := k :: ks } f).ks = ks ∧
              (Vst.key t.media { ks := k :: ks } f).firstKf = false ∧ (Vst.key t.media { ks := k :: ks } f).lastKey = 0 := by
            unfold Vst.key
            rw [if_pos (.inr hk)]
            simp only [if_pos hv, a1, a3, a4, a5]
            simp
          obtain ⟨e1, e2, e3, e4⟩ := e
          refine ⟨⟨by omega, t5, ?_, by rw [t8, e1]⟩, by rw [t4, e4]⟩
          rw [if_pos hv, t1, t2, t3, t4, t5, e2, e3, e4, hi]
          exact ⟨a6, rfl, Nat.zero_le _⟩
      · rw [if_neg hv] at h7
        have e : (Vst.key t.media { ks := t.ks } f).ok = true ∧ (Vst.key t.media { ks := t.ks } f).ks = t.ks ∧
            (Vst.key t.media { ks := t.ks } f).lastKey = 0 := by
          unfold Vst.key
          rw [if_pos (.inl hv)]
          simp only [if_neg hv]
          exact ⟨trivial, trivial, trivial⟩
        refine ⟨⟨by omega, t5, ?_, by rw [t8, e.1]⟩, by rw [t4, e.2.2]⟩
        rw [if_neg hv, t1, e.2.1, h7.1]
    obtain ⟨hv1, hv2⟩ := hstep
    obtain ⟨t1, t2, t3, t4, t5, t6, t7, t8⟩ := tick_same (Vst.key t.media { ks := t.ks } f) f
    obtain ⟨k1, k2, k3, k4⟩ := key_same t.media { ks := t.ks } f
    obtain ⟨k5, k6⟩ := key_pts t.media { ks := t.ks } f
    have hsp : ((Vst.key t.media { ks := t.ks } f).tick f).splitCount = 0 ∧ ((Vst.key t.media { ks := t.ks } f).tick f).minSplit = invalid := by
      unfold Vst.tick
      simp only
      rw [if_neg (by rw [k1]; simp)]
      exact ⟨k3, k4⟩
    have hend := validateLoop_ok t.media fs f _ hv1 (fun x hx => h4 x (List.mem_cons_of_mem _ hx)) (h5 f (by simp))
      (fun x hx => h5 x (List.mem_cons_of_mem _ hx))
    obtain ⟨l, hl⟩ : ∃ l, (f :: fs).getLast? = some l := ⟨_, List.getLast?_eq_some_getLast (by simp)⟩
    have e1 := hend.index
    have e2 := hend.splitCount
    have e3 := hend.minSplit
    have e4 := hend.prev l hl
    have e5 := hend.keyPts
    have e6 := hend.pending
    have e7 := hend.lastKey
    rw [t3, k1] at e1
    rw [hsp.1] at e2
    rw [hsp.2, if_pos rfl, t5] at e3
    rw [t6, k5, if_pos ha] at e5
    rw [t6, t7, k5, k6, if_pos ha, if_neg (by simp)] at e6
    rw [hv2, t3, k1] at e7
    have g5 := h6 (by simp)
    rw [anchorPts, if_pos ha] at g5
    have g7 : t.lastKey = if t.media = .video ∧ fs.any (·.i.key) then 0 + 1 + keyIdx fs else 0 := by
      by_cases hv : t.media = .video
      · rw [if_pos hv] at h7
        rw [h7.2, keyIdx]
        simp only [hv, true_and]
        split
        · omega
        · rfl
      · rw [if_neg hv] at h7
        rw [h7.2]
        simp [hv]
    rw [hend.ok, hend.ks, e1, e2, e3, e4, e7, g7, h1 f rfl, hc, h9, h10, h2 l hl, ← e5] at *
    simp only [List.length_cons] at *
    simp [splits, getMinSplit]
    omega

end Verif.Segmenter
