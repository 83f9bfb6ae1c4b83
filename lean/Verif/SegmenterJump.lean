import Verif.SegmenterProps

/-!
# Discontinuities of a track: where a segment is cut, and what its log says
-/

namespace Verif.Segmenter

/-- The time of `b` is far from the time of the frame before it, `a`: more than `fwd` later, or more than `back` earlier. -/
def far (fwd back : Nat) (a b : In) : Bool := decide (b.pts < a.pts - back) || decide (b.pts > a.pts + fwd)

/-- No frame of the list is far from the one before it; of a video track only key frames count. -/
def Calm (m : Media) (fwd back : Nat) : List In → Prop
  | a :: b :: l => ((m = .video → b.key = true) → far fwd back a b = false) ∧ Calm m fwd back (b :: l)
  | _ => True

/-- What happened to a track, from its log. -/
structure Hist where
  /-- The pending frames. -/
  queue : List In := []
  /-- The index of the last segment. -/
  last : Option Nat := none
  /-- Since the last segment frames were disposed, or the frame that was pending after it is far from its last frame. -/
  gap : Bool := false
  /-- The segments that follow a gap, when the track has the segment before them too. -/
  breaks : List Nat := []

/-- The frame that is next is far from the last frame of a segment. -/
def farNext (fwd back : Nat) (src queue : List In) : Bool :=
  match src.getLast?, queue.head? with
  | some a, some b => far fwd back a b
  | _, _ => false

def Hist.ev (fwd back : Nat) (h : Hist) : Ev → Hist
  | .acc i => { h with queue := h.queue ++ [i] }
  | .seg j src _ =>
    { queue := h.queue.drop src.length
      last := some j
      gap := farNext fwd back src (h.queue.drop src.length)
      breaks := if h.gap = true ∧ h.last.map (· + 1) = some j then h.breaks ++ [j] else h.breaks }
  | .drop fs => { h with queue := h.queue.drop fs.length, gap := h.gap || !fs.isEmpty }
  | .reset _ => { h with queue := [], gap := false }
  | .jump _ => h

def hist (fwd back : Nat) (log : List Ev) : Hist := log.foldl (Hist.ev fwd back) {}

theorem hist_push (fwd back : Nat) (log : List Ev) (e : Ev) : hist fwd back (log ++ [e]) = (hist fwd back log).ev fwd back e := by
  simp [hist]

/-! ## A segment ends before the next split -/

theorem kfIndexLoop_split (target : Int) : ∀ (fs : List Frame) (d : Nat) (p : Option Int) (ks : List Kf) (cur index : Nat) (diff : Int),
    KfOk d p fs ks → index ≤ cur + d → ∀ m f, fs[m]? = some f → f.i.key = true → f.split = true →
    kfIndexLoop target ks cur index diff ≤ cur + d + m := by
  intro fs
  induction fs with
  | nil => intro d p ks cur index diff _ _ m f hf; simp at hf
  | cons g fs ih =>
    intro d p ks cur index diff h hi m f hf hk hs
    rw [kfOk_cons] at h
    split at h
    · cases ks with
      | nil => exact h.elim
      | cons k ks =>
        simp only at h
        obtain ⟨h1, h2, h3, h4, h5, h6⟩ := h
        rw [kfIndexLoop]
        obtain ⟨ix, df, e, hix⟩ : ∃ ix df, (if absDiff k.prevPts target ≤ diff then (cur + k.delta, absDiff k.prevPts target) else (index, diff)) =
            (ix, df) ∧ ix ≤ cur + k.delta := by
          split
          · exact ⟨_, _, rfl, Nat.le_refl _⟩
          · exact ⟨_, _, rfl, by omega⟩
        simp only [e]
        by_cases hks : k.split = true
        · rw [if_pos hks]; omega
        · rw [if_neg hks]
          cases m with
          | zero =>
            simp at hf
            subst hf
            rw [h3] at hks
            exact absurd hs hks
          | succ m =>
            have := ih 1 _ ks (cur + k.delta) ix df h6 (by omega) m f (by simpa using hf) hk hs
            omega
    · rename_i hg
      cases m with
      | zero =>
        simp at hf
        subst hf
        exact absurd hk hg
      | succ m =>
        have := ih (d + 1) _ ks cur index diff h (by omega) m f (by simpa using hf) hk hs
        omega

theorem getIndexLoop_split (target : Int) : ∀ (fs : List Frame) (cur index : Nat) (diff : Int), index ≤ cur →
    ∀ m f, fs[m]? = some f → f.split = true → getIndexLoop target fs cur index diff ≤ cur + m := by
  intro fs
  induction fs with
  | nil => intro cur index diff _ m f hf; simp at hf
  | cons g fs ih =>
    intro cur index diff hi m f hf hs
    rw [getIndexLoop]
    split
    · omega
    · rename_i hg
      cases m with
      | zero =>
        simp at hf
        subst hf
        exact absurd hs hg
      | succ m =>
        have hf : fs[m]? = some f := by simpa using hf
        dsimp only
        split
        · have := ih (cur + 1) (cur + 1) (absDiff g.i.pts target) (Nat.le_refl _) m f hf hs
          omega
        · have := ih (cur + 1) index diff (by omega) m f hf hs
          omega

/-- The number of frames for a segment stops before the next frame that is marked. -/
theorem splitIndex_split {t : Track} (h : TInv t) (g : Cfg) (force : Bool) (start target : Int) {m : Nat} {f : Frame}
    (hf : t.fs[m + 1]? = some f) (hs : f.split = true) : splitIndex g force start target t ≤ m + 1 := by
  obtain ⟨f0, rest, e⟩ : ∃ f0 rest, t.fs = f0 :: rest :=
    List.exists_cons_of_length_pos (Nat.lt_of_le_of_lt (Nat.zero_le _) (List.getElem?_eq_some_iff.1 hf).1)
  have hf' : rest[m]? = some f := by rw [e] at hf; simpa using hf
  unfold splitIndex
  simp only
  split
  · rename_i hc
    have := h.splitCount
    rw [hc.2.1, e] at this
    simp only [splits, List.drop_succ_cons, List.drop_zero] at this
    have h0 := List.countP_eq_zero.1 this.symm f (List.mem_of_getElem? hf')
    exact absurd hs h0
  · split
    · omega
    · generalize (if target + (g.splitSnap : Int) < t.minSplit then target else target + (g.splitSnap : Int)) = cur
      by_cases hv : t.media = .video
      · rw [if_pos hv]
        have hk := h.kfs
        rw [if_pos hv] at hk
        have hkey : f.i.key = true := by
          have := h.split f (List.mem_of_getElem? hf) hs
          simpa [anchor, hv] using this
        have hk0 : f0.i.key = true := by
          have := h.head f0 (by rw [e]; rfl)
          simpa [anchor, hv] using this
        have hk1 := hk.1
        rw [e, kfOk_cons, if_pos hk0] at hk1
        cases hks : t.ks with
        | nil => rw [hks] at hk1; exact hk1.elim
        | cons k ks =>
          rw [hks] at hk1
          simp only at hk1
          obtain ⟨_, _, _, _, h5, h6⟩ := hk1
          rw [kfIndex]
          split
          · omega
          · have := kfIndexLoop_split cur rest 1 _ ks k.delta k.delta (absDiff k.pts cur) h6 (by omega) m f hf' hkey hs
            omega
      · rw [if_neg hv, e, getIndex]
        split
        · omega
        · have := getIndexLoop_split cur rest 1 1 (absDiff f0.i.pts cur) (Nat.le_refl _) m f hf' hs
          omega

/-! ## Pending frames -/

/-- No pending frame that is not marked is far from the one before it. -/
def CalmF (m : Media) (fwd back : Nat) : List Frame → Prop
  | a :: b :: l => (anchor m b = true → b.split = false → far fwd back a.i b.i = false) ∧ CalmF m fwd back (b :: l)
  | _ => True

theorem calmF_tail {m : Media} {fwd back : Nat} : ∀ (l l' : List Frame), l.drop 1 = l'.drop 1 → l.map (·.i) = l'.map (·.i) →
    CalmF m fwd back l → CalmF m fwd back l' := by
  intro l l' h h' hc
  match l, l' with
  | _, [] => trivial
  | _, [a] => trivial
  | [], a :: b :: l' => simp at h
  | [x], a :: b :: l' => simp at h
  | x :: y :: l, a :: b :: l' =>
    simp only [List.drop_succ_cons, List.drop_zero, List.cons.injEq] at h
    obtain ⟨rfl, rfl⟩ := h
    simp only [List.map_cons, List.cons.injEq] at h'
    refine ⟨?_, hc.2⟩
    rw [← h'.1]
    exact hc.1

theorem calmF_drop {m : Media} {fwd back : Nat} : ∀ (n : Nat) (l : List Frame), CalmF m fwd back l → CalmF m fwd back (l.drop n) := by
  intro n
  induction n with
  | zero => intro l h; exact h
  | succ n ih =>
    intro l h
    match l with
    | [] => simp [CalmF]
    | [a] => simp [CalmF]
    | a :: b :: l => exact ih (b :: l) h.2

theorem calmF_push {m : Media} {fwd back : Nat} (f : Frame) : ∀ (l : List Frame), CalmF m fwd back l →
    (∀ a ∈ l.getLast?, anchor m f = true → f.split = false → far fwd back a.i f.i = false) → CalmF m fwd back (l ++ [f]) := by
  intro l
  induction l with
  | nil => intro _ _; trivial
  | cons a l ih =>
    intro h hl
    match l with
    | [] => exact ⟨hl a rfl, trivial⟩
    | b :: l =>
      refine ⟨h.1, ih h.2 ?_⟩
      rw [List.getLast?_cons_cons] at hl
      exact hl

/-- The frames of a segment, when no frame but the first is marked. -/
theorem calm_take {m : Media} {fwd back : Nat} : ∀ (n : Nat) (l : List Frame), CalmF m fwd back l →
    (∀ k f, l[k + 1]? = some f → f.split = true → n ≤ k + 1) → Calm m fwd back ((l.take n).map (·.i)) := by
  intro n
  induction n with
  | zero => intro l _ _; simp [Calm]
  | succ n ih =>
    intro l h hs
    match l with
    | [] => simp [Calm]
    | [a] => simp [Calm]
    | a :: b :: l =>
      cases n with
      | zero => simp [Calm]
      | succ n =>
        rw [List.take_succ_cons, List.take_succ_cons, List.map_cons, List.map_cons]
        refine ⟨?_, ?_⟩
        · intro hk
          refine h.1 ?_ ?_
          · unfold anchor
            by_cases hv : m = .video
            · simp [hk hv]
            · simp [hv]
          · cases hb : b.split with
            | false => rfl
            | true =>
              have := hs 0 b rfl hb
              omega
        · have := ih (b :: l) h.2 (by
            intro k f hf hb
            have := hs (k + 1) f (by simpa using hf) hb
            omega)
          rw [List.take_succ_cons, List.map_cons] at this
          exact this

/-- The frame after the segment: it is marked, or it is not far from the last frame of the segment. -/
theorem calm_next {m : Media} {fwd back : Nat} : ∀ (n : Nat) (l : List Frame), CalmF m fwd back l → (∀ f ∈ (l.drop n).head?, anchor m f = true) →
    farNext fwd back ((l.take n).map (·.i)) ((l.drop n).map (·.i)) = true → ∀ f ∈ (l.drop n).head?, f.split = true := by
  intro n
  induction n with
  | zero =>
    intro l _ _ hf
    simp [farNext] at hf
  | succ n ih =>
    intro l h ha hf
    match l with
    | [] => simp
    | [a] => simp
    | a :: b :: l =>
      cases n with
      | zero =>
        intro f hb
        simp only [List.drop_succ_cons, List.drop_zero, List.head?_cons, Option.mem_def, Option.some.injEq] at hb
        subst hb
        cases hs : b.split with
        | true => rfl
        | false =>
          have := h.1 (ha b rfl) hs
          simp [farNext] at hf
          rw [hf] at this
          cases this
      | succ n =>
        refine ih (b :: l) h.2 ha ?_
        rw [List.take_succ_cons, List.map_cons] at hf
        rw [List.take_succ_cons, List.map_cons] at hf ⊢
        unfold farNext at hf ⊢
        rw [List.getLast?_cons_cons] at hf
        exact hf

end Verif.Segmenter
