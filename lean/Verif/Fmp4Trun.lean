import Verif.Fmp4Box

/-!
# Atoms `trun`: written in runs, read as samples
-/

namespace Verif.Fmp4

open Fmp4Spec (num slice Box boxes allBoxes kind the Sample Entry readEntry readEntries readTrun readTruns signed opt samples total)

/-- The runs of frames (offset and entry): the start of a run and its entries. -/
def runs : Option (Nat × List Entry) → Nat → List (Nat × Entry) → List (Nat × List Entry)
  | none, _, [] => []
  | some g, _, [] => [g]
  | none, _, (o, e) :: fs => runs (some (o, [e])) (o + e.size) fs
  | some g, cur, (o, e) :: fs =>
    if o ≠ cur then g :: runs (some (o, [e])) (o + e.size) fs
    else runs (some (g.1, g.2 ++ [e])) (cur + e.size) fs

/-- The frames of a run. -/
def spread : Nat → List Entry → List (Nat × Entry)
  | _, [] => []
  | o, e :: es => (o, e) :: spread (o + e.size) es

theorem spread_snoc (o : Nat) (es : List Entry) (e : Entry) :
    spread o (es ++ [e]) = spread o es ++ [(o + (es.map (·.size)).sum, e)] := by
  induction es generalizing o with
  | nil => simp [spread]
  | cons x es ih => simp [spread, ih, Nat.add_assoc]

/-- The runs have all frames. -/
theorem spread_runs : ∀ (fs : List (Nat × Entry)) (g : Nat × List Entry),
    (runs (some g) (g.1 + (g.2.map (·.size)).sum) fs).flatMap (fun g => spread g.1 g.2) = spread g.1 g.2 ++ fs := by
  intro fs
  induction fs with
  | nil => intro g; simp [runs]
  | cons x fs ih =>
    intro g
    obtain ⟨o, e⟩ := x
    unfold runs
    split
    · rw [List.flatMap_cons]
      have := ih (o, [e])
      simp only [List.map_cons, List.map_nil, List.sum_cons, List.sum_nil, Nat.add_zero] at this
      rw [this]; simp [spread]
    · rename_i h
      have ho : o = g.1 + (g.2.map (·.size)).sum := Decidable.not_not.mp h
      have := ih (g.1, g.2 ++ [e])
      simp only [List.map_append, List.map_cons, List.map_nil, List.sum_append, List.sum_cons, List.sum_nil, Nat.add_zero] at this
      rw [Nat.add_assoc, this, spread_snoc, ho, List.append_assoc]; rfl

theorem spread_all (c : Nat) (fs : List (Nat × Entry)) : (runs none c fs).flatMap (fun g => spread g.1 g.2) = fs := by
  cases fs with
  | nil => rfl
  | cons x fs =>
    obtain ⟨o, e⟩ := x
    have := spread_runs fs (o, [e])
    simp only [List.map_cons, List.map_nil, List.sum_cons, List.sum_nil, Nat.add_zero] at this
    rw [runs, this]; rfl

/-- The content of the atom of a run. -/
def runBody (k : Kind) (base : Nat) (g : Nat × List Entry) : Bytes :=
  be32 k.flags ++ be32 g.2.length ++ be32 (base + g.1) ++ g.2.flatMap (encEntry k)

theorem flatMap_enc_length (k : Kind) (es : List Entry) : (es.flatMap (encEntry k)).length = k.entrySize * es.length := by
  induction es with
  | nil => rfl
  | cons e es ih => rw [List.flatMap_cons, List.length_append, ih, encEntry_length, List.length_cons, Nat.mul_succ, Nat.add_comm]

theorem runBody_length (k : Kind) (base : Nat) (g : Nat × List Entry) : (runBody k base g).length = 12 + k.entrySize * g.2.length := by
  unfold runBody
  rw [List.length_append, List.length_append, List.length_append, flatMap_enc_length]
  rfl

theorem runBody_bytes (k : Kind) (base : Nat) (g : Nat × List Entry) :
    trunHeader k (base + g.1) g.2.length ++ g.2.flatMap (encEntry k)
      = atom (8 + (runBody k base g).length) (name 't' 'r' 'u' 'n') ++ runBody k base g := by
  rw [runBody_length]
  unfold trunHeader runBody
  rw [Nat.add_assoc 8 12]
  simp only [List.append_assoc]

/-- The atoms of runs, by type and content. -/
def runBoxes (k : Kind) (base : Nat) (gs : List (Nat × List Entry)) : List (Bytes × Bytes) :=
  gs.map fun g => (name 't' 'r' 'u' 'n', runBody k base g)

theorem runBoxes_cons (k : Kind) (base : Nat) (g : Nat × List Entry) (gs : List (Nat × List Entry)) :
    enc (runBoxes k base (g :: gs)) = (trunHeader k (base + g.1) g.2.length ++ g.2.flatMap (encEntry k)) ++ enc (runBoxes k base gs) := by
  rw [runBody_bytes]; rfl

/-- What the loop gets for a frame. -/
def arg (k : Kind) (x : Nat × Entry) : Nat × Nat × Bytes := (x.1, x.2.size, encEntry k x.2)

theorem truns_go {k : Kind} {base : Nat} : ∀ (fs : List (Nat × Entry)) (done : Bytes) (st : Nat) (es : List Entry) (cur : Nat),
    (∀ x ∈ fs, x.1 + x.2.size < 2 ^ 32) → cur < 2 ^ 32 →
    (Trun.frames k base ⟨done, some (st, es.length, es.flatMap (encEntry k)), cur⟩ (fs.map (arg k))).close k base
      = done ++ enc (runBoxes k base (runs (some (st, es)) cur fs)) := by
  intro fs
  induction fs with
  | nil =>
    intro done st es cur _ _
    rw [runs, runBoxes_cons]
    show done ++ _ = done ++ (_ ++ [])
    rw [List.append_nil]
  | cons x fs ih =>
    intro done st es cur hb hc
    obtain ⟨o, e⟩ := x
    have hx := hb (o, e) List.mem_cons_self
    simp only at hx
    have hb' := fun y hy => hb y (List.mem_cons_of_mem _ hy)
    rw [List.map_cons]
    unfold arg Trun.frames Trun.frame runs
    simp only
    by_cases ho : o ≠ cur
    · rw [if_pos ho, if_pos ho, Nat.mod_eq_of_lt hx]
      have := ih ((⟨done, some (st, es.length, es.flatMap (encEntry k)), cur⟩ : Trun).close k base) o [e] (o + e.size) hb' hx
      simp only [List.length_cons, List.length_nil, List.flatMap_cons, List.flatMap_nil, List.append_nil] at this
      refine this.trans ?_
      rw [runBoxes_cons]
      show done ++ _ ++ _ = _
      rw [List.append_assoc]
    · rw [if_neg ho, if_neg ho]
      have ho' : o = cur := Decidable.not_not.mp ho
      subst ho'
      rw [Nat.mod_eq_of_lt hx]
      have := ih done st (es ++ [e]) (o + e.size) hb' hx
      simp only [List.length_append, List.length_cons, List.length_nil, List.flatMap_append, List.flatMap_cons, List.flatMap_nil,
        List.append_nil] at this
      exact this

/-- The atoms that are written are those of the runs. -/
theorem truns_runs {k : Kind} {base c d : Nat} {fs : List (Nat × Entry)} (hb : ∀ x ∈ fs, x.1 + x.2.size < 2 ^ 32) :
    (Trun.frames k base ⟨[], none, c⟩ (fs.map (arg k))).close k base = enc (runBoxes k base (runs none d fs)) := by
  cases fs with
  | nil => rfl
  | cons x fs =>
    obtain ⟨o, e⟩ := x
    have hx := hb (o, e) List.mem_cons_self
    simp only at hx
    have := truns_go (k := k) (base := base) fs [] o [e] (o + e.size) (fun y hy => hb y (List.mem_cons_of_mem _ hy)) hx
    simp only [List.length_cons, List.length_nil, List.flatMap_cons, List.flatMap_nil, List.append_nil, List.nil_append] at this
    rw [List.map_cons]
    unfold arg Trun.frames Trun.frame runs
    simp only
    rw [Nat.mod_eq_of_lt hx]
    exact this

/-- Number of runs. -/
theorem runs_some_length : ∀ (fs : List (Nat × Entry)) (g : Nat × List Entry) (cur : Nat),
    (runs (some g) cur fs).length = 1 + starts (some cur) (fs.map fun x => (x.1, x.2.size)) := by
  intro fs
  induction fs with
  | nil => intro g cur; rfl
  | cons x fs ih =>
    intro g cur
    obtain ⟨o, e⟩ := x
    rw [runs, List.map_cons, starts]
    by_cases h : o = cur
    · subst h
      rw [if_neg (by simp), if_pos rfl, ih, Nat.zero_add]
    · rw [if_pos h, if_neg (by simpa using fun h' => h h'.symm), List.length_cons, ih, Nat.add_comm]

theorem runs_length (c : Nat) (fs : List (Nat × Entry)) : (runs none c fs).length = starts none (fs.map fun x => (x.1, x.2.size)) := by
  cases fs with
  | nil => rfl
  | cons x fs =>
    obtain ⟨o, e⟩ := x
    rw [runs, runs_some_length, List.map_cons, starts, if_neg (by simp)]

/-! ## Reading -/

/-- The samples of frames. -/
def expect (file : Bytes) (p v : Nat) : Int → List (Nat × Entry) → List Sample
  | _, [] => []
  | t, (o, e) :: fs =>
    ⟨t, t + (if v = 0 then (e.cts : Int) else signed e.cts), e.dur, !e.flags.testBit 16, slice file (p + o) e.size⟩ ::
      expect file p v (t + e.dur) fs

/-- The sum of durations of frames. -/
def durs (fs : List (Nat × Entry)) : Int := (fs.map fun x => (x.2.dur : Int)).sum

theorem total_expect (file : Bytes) (p v : Nat) (t : Int) (fs : List (Nat × Entry)) : total (expect file p v t fs) = durs fs := by
  induction fs generalizing t with
  | nil => rfl
  | cons x fs ih =>
    have := ih (t + x.2.dur)
    unfold total durs at *
    simp only [expect, List.map_cons, List.sum_cons, this]

theorem expect_append (file : Bytes) (p v : Nat) (t : Int) (fs gs : List (Nat × Entry)) :
    expect file p v t (fs ++ gs) = expect file p v t fs ++ expect file p v (t + durs fs) gs := by
  induction fs generalizing t with
  | nil => simp [expect, durs]
  | cons x fs ih =>
    simp only [List.cons_append, expect, ih, durs, List.map_cons, List.sum_cons, Int.add_assoc]

/-- The data of the frames is within a box `mdat`. -/
def Within (mdats : List Box) (p : Nat) (fs : List (Nat × Entry)) : Prop :=
  ∀ x ∈ fs, (mdats.any fun m => m.pos + 8 ≤ p + x.1 ∧ p + x.1 + x.2.size ≤ m.pos + 8 + m.body.length) = true

theorem samples_spread {file : Bytes} {mdats : List Box} {v p : Nat} : ∀ (es : List Entry) (o : Nat) (t : Int), Within mdats p (spread o es) →
    samples file mdats v (p + o) t es = some (expect file p v t (spread o es)) := by
  intro es
  induction es with
  | nil => intro o t _; rfl
  | cons e es ih =>
    intro o t h
    unfold samples
    rw [if_pos (h (o, e) List.mem_cons_self), Nat.add_assoc, ih (o + e.size) _ fun x hx => h x (List.mem_cons_of_mem _ hx)]
    rfl

/-- The version of a `trun`. -/
def Kind.version (k : Kind) : Nat := k.flags / 2 ^ 24

theorem version_flags (k : Kind) : num ((be32 k.flags).take 1) = k.version ∧ num (((be32 k.flags).drop 1).take 3) = k.low := by
  cases k <;> decide +kernel

theorem low_bits (k : Kind) : k.low.testBit 0 = true ∧ k.low.testBit 2 = false ∧ k.low.testBit 8 = true ∧ k.low.testBit 9 = true := by
  cases k <;> decide +kernel

theorem readTrun_run {file : Bytes} {mdats : List Box} {k : Kind} {base moof : Nat} {t : Int} {g : Nat × List Entry}
    (he : ∀ e ∈ g.2, EntryOk k e) (hn : g.2.length < 2 ^ 32) (hb : base + g.1 < 2 ^ 31) (hw : Within mdats (moof + base) (spread g.1 g.2)) :
    readTrun file mdats moof t (runBody k base g) = some (expect file (moof + base) k.version t (spread g.1 g.2)) := by
  have h1 : num ((runBody k base g).take 1) = k.version := (version_flags k).1
  have h2 : num (slice (runBody k base g) 1 3) = k.low := (version_flags k).2
  have h3 : num (slice (runBody k base g) 4 4) = g.2.length := num_be32_lt hn
  have h4 : num (slice (runBody k base g) 8 4) = base + g.1 := num_be32_lt (by omega)
  have h5 : (runBody k base g).drop 12 = g.2.flatMap (encEntry k) := rfl
  have h6 : (moof + signed (base + g.1)).toNat = moof + base + g.1 := by
    unfold signed
    rw [if_pos hb]
    omega
  unfold readTrun
  simp only [h1, h2, h3, h4, h5, h6]
  obtain ⟨b1, b2, b3, b4⟩ := low_bits k
  rw [b1, b2, b3, b4, if_neg (by rw [runBody_length]; simp), readEntries_enc he]
  exact samples_spread g.2 g.1 t hw

/-- All atoms of runs are read as the samples of their frames. -/
theorem readTruns_runs {file : Bytes} {mdats : List Box} {k : Kind} {base moof : Nat} : ∀ (gs : List (Nat × List Entry)) (t : Int) (pos : Nat),
    (∀ g ∈ gs, (∀ e ∈ g.2, EntryOk k e) ∧ g.2.length < 2 ^ 32 ∧ base + g.1 < 2 ^ 31 ∧ Within mdats (moof + base) (spread g.1 g.2)) →
    readTruns file mdats moof t (toBoxes pos (runBoxes k base gs))
      = some (expect file (moof + base) k.version t (gs.flatMap fun g => spread g.1 g.2)) := by
  intro gs
  induction gs with
  | nil => intro t pos _; rfl
  | cons g gs ih =>
    intro t pos h
    obtain ⟨h1, h2, h3, h4⟩ := h g List.mem_cons_self
    show readTruns file mdats moof t (⟨pos, name 't' 'r' 'u' 'n', runBody k base g⟩ :: toBoxes _ (runBoxes k base gs)) = _
    rw [readTruns, readTrun_run h1 h2 h3 h4]
    show (readTruns file mdats moof (t + total _) _).bind _ = _
    rw [ih _ _ fun x hx => h x (List.mem_cons_of_mem _ hx), total_expect]
    rw [List.flatMap_cons, expect_append]
    rfl

end Verif.Fmp4
