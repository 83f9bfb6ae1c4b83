import Verif.Fmp4Head

/-!
# The response is read as the frames
-/

namespace Verif.Fmp4

open Fmp4Spec (num slice Box boxes allBoxes kind the Sample Entry signed readTraf readMoof readSegment readTruns readTfdt)

/-! ## Bounds -/

theorem set_sum {cs : List Cur} {i : Nat} {c : Cur} {f : Frame} {fs : List Frame} (hc : cs[i]? = some c) (hl : c.left = f :: fs) :
    (cs.map fun c => (c.left.map (·.size)).sum).sum = f.size + ((cs.set i c.tail).map fun c => (c.left.map (·.size)).sum).sum := by
  induction cs generalizing i with
  | nil => cases hc
  | cons d cs ih =>
    cases i with
    | zero =>
      injection hc with hc; subst hc
      rw [tail_eq hl]
      simp only [List.set_cons_zero, List.map_cons, List.sum_cons, hl]
      omega
    | succ i =>
      have := ih hc
      simp only [List.set_cons_succ, List.map_cons, List.sum_cons]
      omega

theorem bytesOf_order {n : Nat} {sel : Option Nat} {cs : List Cur} (h : framesLeft cs ≤ n) :
    bytesOf (order n sel cs) = (cs.map fun c => (c.left.map (·.size)).sum).sum := by
  have zero : ∀ cs : List Cur, (∀ c ∈ cs, c.left = []) → (cs.map fun c => (c.left.map (·.size)).sum).sum = 0 := by
    intro cs h
    induction cs with
    | nil => rfl
    | cons c cs ih =>
      rw [List.map_cons, List.sum_cons, ih fun d hd => h d (List.mem_cons_of_mem _ hd), h c List.mem_cons_self]; rfl
  induction n generalizing sel cs with
  | zero =>
    rw [zero cs]
    · rfl
    · intro c hc
      have : c.left.length ≤ framesLeft cs := le_sum (List.mem_map.mpr ⟨c, hc, rfl⟩)
      exact List.length_eq_zero_iff.mp (by omega)
  | succ n ih =>
    cases hch : choose sel cs with
    | none => rw [order_none hch, zero cs (choose_none hch)]; rfl
    | some i =>
      obtain ⟨c, f, fs, hc, hl⟩ := choose_some hch
      have := framesLeft_set hc hl
      rw [order_some hch hc hl, bytesOf_cons, set_sum hc hl, ih (by omega)]

theorem bytesOf_seg (g : Seg) : bytesOf g.order = (g.tracks.map fun t => (t.frames.map (·.size)).sum).sum := by
  unfold Seg.order
  rw [bytesOf_order (Nat.le_refl _), List.map_map]
  rfl

theorem places_length (i off : Nat) (o : List (Nat × Frame)) : (places i off o).length = (ofStream i o).length := by
  unfold places
  rw [List.length_zip, offsOf_length, List.length_map, Nat.min_self]

theorem allStarts_le {o : List (Nat × Frame)} {k : Nat} {ts : List Track}
    (h : ∀ j (t : Track), ts[j]? = some t → ofStream (k + j) o = t.frames) :
    allStarts 0 o k (ts.map Str.init) ≤ (ts.map fun t => t.frames.length).sum := by
  induction ts generalizing k with
  | nil => exact Nat.le_refl _
  | cons t ts ih =>
    rw [List.map_cons, allStarts, List.map_cons, List.sum_cons]
    have h0 : ofStream k o = t.frames := h 0 t rfl
    have h1 := starts_le (Str.init t).ended (places k 0 o)
    rw [places_length, h0] at h1
    have h2 := ih (k := k + 1) (by
      intro j t' hj
      rw [← h (j + 1) t' hj, Nat.add_assoc, Nat.add_comm 1 j])
    omega

/-- The sum of the sizes of the frames of a segment, with what may be written beside them. -/
def Seg.bound (g : Seg) : Nat := 300 + g.info.length + (g.tracks.map fun t => 64 + (t.frames.map fun f => 36 + f.size).sum).sum

/-- A segment that fits the fields of the boxes: its size fits 31 bits; durations fit 32 bits, delays 31 bits and times 63 bits; the
data of the frames is there. -/
structure Seg.Fits (g : Seg) : Prop where
  size : g.bound < 2 ^ 31
  frame : ∀ t ∈ g.tracks, ∀ f ∈ t.frames, f.dur < 2 ^ 32 ∧ f.delay < 2 ^ 31
  start : ∀ t ∈ g.tracks, t.start + t.initial < 2 ^ 63
  avail : ∀ t ∈ g.tracks, (t.frames.map (·.size)).sum ≤ t.avail

theorem sum_frames (fs : List Frame) : (fs.map fun f => 36 + f.size).sum = 36 * fs.length + (fs.map (·.size)).sum := by
  induction fs with
  | nil => rfl
  | cons f fs ih => simp only [List.map_cons, List.sum_cons, List.length_cons, ih]; omega

theorem bound_eq (g : Seg) : g.bound = 300 + g.info.length + 64 * g.tracks.length + 36 * (g.tracks.map fun t => t.frames.length).sum +
    bytesOf g.order := by
  rw [bytesOf_seg]
  unfold Seg.bound
  simp only [sum_frames]
  induction g.tracks with
  | nil => rfl
  | cons t ts ih => simp only [List.map_cons, List.sum_cons, List.length_cons] at *; omega

theorem entries_le (ts : List Track) : (ts.map fun t => t.frames.length * t.kind.entrySize).sum ≤ 16 * (ts.map fun t => t.frames.length).sum := by
  induction ts with
  | nil => exact Nat.le_refl _
  | cons t ts ih =>
    simp only [List.map_cons, List.sum_cons]
    have : t.frames.length * t.kind.entrySize ≤ t.frames.length * 16 := Nat.mul_le_mul_left _ (by cases t.kind <;> decide)
    omega

theorem fits_bytes {g : Seg} (h : g.Fits) : bytesOf g.order < uintMax := by
  have := h.size
  rw [bound_eq] at this
  have : (2 : Nat) ^ 31 < uintMax := by decide
  omega

/-- The response is not larger than the bound. -/
theorem total_le {g : Seg} (h : g.Fits) : totalSize g 1 0 ≤ g.bound := by
  obtain ⟨_, _, h3, h4⟩ := layout_facts (fits_bytes h)
  have h5 := allStarts_le (o := g.order) (k := 0) (ts := g.tracks) fun j t hj => by rw [Nat.zero_add]; exact ofStream_order hj
  rw [← h4] at h5
  have h6 := entries_le g.tracks
  have h7 : (sizes g 1 0).1 ≤ 24 := by unfold sizes; simp only; split <;> omega
  have h8 : (sizes g 1 0).2.1 ≤ 101 + g.info.length := by
    unfold sizes; simp only
    cases g.tracks with
    | nil => simp
    | cons t ts => simp only; split <;> omega
  have h9 : (sizes g 1 0).2.2.1 ≤ 52 := by
    unfold sizes; simp only
    split
    · split <;> omega
    · omega
  have h10 : moofSize g 1 0 (layout g).truns ≤ 24 + 48 * g.tracks.length + 36 * (g.tracks.map fun t => t.frames.length).sum := by
    unfold moofSize
    rw [if_pos (by omega)]
    omega
  rw [bound_eq]
  show (sizes g 1 0).1 + (sizes g 1 0).2.1 + (sizes g 1 0).2.2.1 + moofSize g 1 0 (layout g).truns + ((layout g).off + 8) ≤ _
  omega

/-! ## Boxes are found -/

theorem kind_moof : name 'm' 'o' 'o' 'f' = kind "moof" := by decide +kernel
theorem kind_mdat : name 'm' 'd' 'a' 't' = kind "mdat" := by decide +kernel
theorem kind_tfhd : name 't' 'f' 'h' 'd' = kind "tfhd" := by decide +kernel
theorem kind_tfdt : name 't' 'f' 'd' 't' = kind "tfdt" := by decide +kernel
theorem ne_mdat : name 'm' 'o' 'o' 'f' ≠ kind "mdat" := by decide +kernel
theorem ne_traf : name 'm' 'f' 'h' 'd' ≠ kind "traf" := by decide +kernel
theorem ne_tfdt : name 't' 'f' 'h' 'd' ≠ kind "tfdt" := by decide +kernel
theorem ne_trun : name 't' 'f' 'h' 'd' ≠ kind "trun" := by decide +kernel
theorem ne_trun' : name 't' 'f' 'd' 't' ≠ kind "trun" := by decide +kernel

theorem find_pos {b : Box} {bs : List Box} {k : Bytes} (h : b.kind = k) : (b :: bs).find? (fun b => decide (b.kind = k)) = some b := by
  rw [List.find?_cons_of_pos (by simpa using h)]

theorem find_neg {b : Box} {bs : List Box} {k : Bytes} (h : b.kind ≠ k) :
    (b :: bs).find? (fun b => decide (b.kind = k)) = bs.find? (fun b => decide (b.kind = k)) := by
  rw [List.find?_cons_of_neg (by simpa using h)]

theorem filter_pos {b : Box} {bs : List Box} {k : Bytes} (h : b.kind = k) :
    (b :: bs).filter (fun b => decide (b.kind = k)) = b :: bs.filter (fun b => decide (b.kind = k)) := by
  rw [List.filter_cons_of_pos (by simpa using h)]

theorem filter_neg {b : Box} {bs : List Box} {k : Bytes} (h : b.kind ≠ k) :
    (b :: bs).filter (fun b => decide (b.kind = k)) = bs.filter (fun b => decide (b.kind = k)) := by
  rw [List.filter_cons_of_neg (by simpa using h)]

theorem toBoxes_kind {pos : Nat} {l : List (Bytes × Bytes)} : ∀ b ∈ toBoxes pos l, ∃ x ∈ l, b.kind = x.1 := by
  induction l generalizing pos with
  | nil => intro b hb; cases hb
  | cons x l ih =>
    intro b hb
    rcases List.mem_cons.mp hb with rfl | hb
    · exact ⟨x, List.mem_cons_self, rfl⟩
    · obtain ⟨y, hy, h⟩ := ih b hb
      exact ⟨y, List.mem_cons_of_mem _ hy, h⟩

theorem filter_none {pos : Nat} {l : List (Bytes × Bytes)} {k : Bytes} (h : ∀ x ∈ l, x.1 ≠ k) :
    (toBoxes pos l).filter (fun b => decide (b.kind = k)) = [] := by
  apply List.filter_eq_nil_iff.mpr
  intro b hb
  obtain ⟨x, hx, he⟩ := toBoxes_kind b hb
  simp [he, h x hx]

theorem filter_all {pos : Nat} {l : List (Bytes × Bytes)} {k : Bytes} (h : ∀ x ∈ l, x.1 = k) :
    (toBoxes pos l).filter (fun b => decide (b.kind = k)) = toBoxes pos l := by
  apply List.filter_eq_self.mpr
  intro b hb
  obtain ⟨x, hx, he⟩ := toBoxes_kind b hb
  simp [he, h x hx]

theorem find_none {pos : Nat} {l : List (Bytes × Bytes)} {k : Bytes} (h : ∀ x ∈ l, x.1 ≠ k) :
    (toBoxes pos l).find? (fun b => decide (b.kind = k)) = none := by
  apply List.find?_eq_none.mpr
  intro b hb
  obtain ⟨x, hx, he⟩ := toBoxes_kind b hb
  simp [he, h x hx]

theorem runs_mem {c : Nat} {fs : List (Nat × Entry)} {g : Nat × List Entry} (h : g ∈ runs none c fs) : ∀ x ∈ spread g.1 g.2, x ∈ fs := by
  intro x hx
  have : x ∈ (runs none c fs).flatMap fun g => spread g.1 g.2 := List.mem_flatMap.mpr ⟨g, h, hx⟩
  rwa [spread_all] at this

theorem spread_snd (o : Nat) (es : List Entry) : (spread o es).map (·.2) = es := by
  induction es generalizing o with
  | nil => rfl
  | cons e es ih => simp only [spread, List.map_cons, ih]

theorem runs_nonempty : ∀ (fs : List (Nat × Entry)) (g : Nat × List Entry) (cur : Nat), g.2 ≠ [] → ∀ h ∈ runs (some g) cur fs, h.2 ≠ [] := by
  intro fs
  induction fs with
  | nil => intro g cur hg h hh; rw [runs, List.mem_singleton] at hh; rw [hh]; exact hg
  | cons x fs ih =>
    intro g cur hg h hh
    obtain ⟨o, e⟩ := x
    rw [runs] at hh
    split at hh
    · rcases List.mem_cons.mp hh with rfl | hh
      · exact hg
      · exact ih _ _ (by simp) h hh
    · exact ih _ _ (by simp) h hh

theorem runs_none_nonempty {c : Nat} {fs : List (Nat × Entry)} : ∀ h ∈ runs none c fs, h.2 ≠ [] := by
  cases fs with
  | nil => intro h hh; cases hh
  | cons x fs =>
    obtain ⟨o, e⟩ := x
    intro h hh
    rw [runs] at hh
    exact runs_nonempty fs _ _ (by simp) h hh

/-! ## A track is read -/

theorem readTfdt_body {n : Nat} (h : n < 2 ^ 64) : readTfdt (tfdtBody n) = some n := by
  have h1 : num ((tfdtBody n).take 1) = 1 := by
    show num ((be32 0x01000000).take 1) = 1
    decide +kernel
  have h2 : (tfdtBody n).length = 12 := rfl
  have h3 : num ((tfdtBody n).drop 4) = n := by
    show num (be64 n) = n
    rw [num_be64, Nat.mod_eq_of_lt h]
  unfold readTfdt
  rw [if_pos ⟨h1, h2⟩, h3]

theorem tfhd_flags (sdi : Nat) (id : Nat) (h : id < 2 ^ 32) :
    ¬ ((tfhdBody id sdi).length < 8 ∨ (num (slice (tfhdBody id sdi) 1 3)).testBit 0 = true ∨ (!(num (slice (tfhdBody id sdi) 1 3)).testBit 17) = true) ∧
    num (slice (tfhdBody id sdi) 4 4) = id := by
  unfold tfhdBody
  split
  · refine ⟨?_, ?_⟩
    · show ¬ (12 < 8 ∨ (num (((be32 0x020002).drop 1).take 3)).testBit 0 = true ∨ (!(num (((be32 0x020002).drop 1).take 3)).testBit 17) = true)
      decide +kernel
    · exact num_be32_lt h
  · refine ⟨?_, ?_⟩
    · show ¬ (8 < 8 ∨ (num (((be32 0x020000).drop 1).take 3)).testBit 0 = true ∨ (!(num (((be32 0x020000).drop 1).take 3)).testBit 17) = true)
      decide +kernel
    · exact num_be32_lt h

theorem trafBoxes_names {base sdi i : Nat} {ex : List (Bytes × Bytes)} {t : Track} {offs : List Nat} (hx : ∀ x ∈ ex, x.1.length = 4) :
    ∀ x ∈ trafBoxes base sdi ex i t offs, x.1.length = 4 := by
  intro x h
  unfold trafBoxes at h
  rcases List.mem_cons.mp h with rfl | h
  · rfl
  rcases List.mem_cons.mp h with rfl | h
  · rfl
  rcases List.mem_append.mp h with h | h
  · obtain ⟨g, _, rfl⟩ := List.mem_map.mp h
    rfl
  · exact hx x h

/-- A `traf` is read as the track and its frames. -/
theorem readTraf_box {file : Bytes} {mdats : List Box} {base sdi i moof : Nat} {ex : List (Bytes × Bytes)} {t : Track} {offs : List Nat}
    (hlen : (enc (trafBoxes base sdi ex i t offs)).length < 2 ^ 31) (hi : i + 1 < 2 ^ 32) (he : t.earliest < 2 ^ 64)
    (hf : ∀ f ∈ t.frames, f.size < 2 ^ 32 ∧ f.dur < 2 ^ 32 ∧ f.delay < 2 ^ 32)
    (hx : ∀ x ∈ ex, x.1.length = 4 ∧ x.1 ≠ kind "trun") (hw : Within mdats (moof + base) (t.at offs))
    (hb : ∀ x ∈ t.at offs, base + x.1 < 2 ^ 31) :
    readTraf file mdats moof (enc (trafBoxes base sdi ex i t offs))
      = some (i + 1, Fmp4.expect file (moof + base) t.kind.version t.earliest (t.at offs)) := by
  unfold readTraf
  rw [allBoxes_enc (trafBoxes_names fun x h => (hx x h).1) (by omega)]
  simp only [Option.bind_eq_bind, Option.bind_some]
  have h1 : the "tfhd" (toBoxes 0 (trafBoxes base sdi ex i t offs)) = some ⟨0, name 't' 'f' 'h' 'd', tfhdBody (i + 1) sdi⟩ := by
    unfold the trafBoxes
    rw [toBoxes, find_pos kind_tfhd]
  have h2 : the "tfdt" (toBoxes 0 (trafBoxes base sdi ex i t offs))
      = some ⟨0 + (8 + (tfhdBody (i + 1) sdi).length), name 't' 'f' 'd' 't', tfdtBody t.earliest⟩ := by
    unfold the trafBoxes
    rw [toBoxes, find_neg ne_tfdt, toBoxes, find_pos kind_tfdt]
  have h3 : (toBoxes 0 (trafBoxes base sdi ex i t offs)).filter (·.kind = kind "trun")
      = toBoxes (0 + (8 + (tfhdBody (i + 1) sdi).length) + (8 + (tfdtBody t.earliest).length)) (runBoxes t.kind base (t.runs offs)) := by
    unfold trafBoxes
    rw [toBoxes, filter_neg ne_trun, toBoxes, filter_neg ne_trun']
    have hn : ∀ x ∈ runBoxes t.kind base (t.runs offs), x.1 = name 't' 'r' 'u' 'n' := by
      intro x h; obtain ⟨g, _, rfl⟩ := List.mem_map.mp h; rfl
    rw [toBoxes_append fun x h => by rw [hn x h]; rfl, List.filter_append, filter_all fun x h => by rw [hn x h]; decide +kernel,
      filter_none fun x h => (hx x h).2, List.append_nil]
  rw [h1, h2, h3]
  simp only [Option.bind_some]
  rw [readTfdt_body he]
  simp only [Option.bind_some]
  obtain ⟨h4, h5⟩ := tfhd_flags sdi (i + 1) hi
  rw [if_neg h4, h5, readTruns_runs]
  · unfold Track.runs
    rw [spread_all]
    rfl
  · intro g hg
    have hm := runs_mem hg
    have hes : ∀ e ∈ g.2, e ∈ t.es := by
      intro e h
      rw [← spread_snd g.1 g.2] at h
      obtain ⟨x, hx, rfl⟩ := List.mem_map.mp h
      exact (List.of_mem_zip (hm x hx)).2
    refine ⟨fun e h => es_ok hf e (hes e h), ?_, ?_, fun x h => hw x (hm x h)⟩
    · have : (runBody t.kind base g).length ≤ (enc (trafBoxes base sdi ex i t offs)).length := by
        have hmem : (name 't' 'r' 'u' 'n', runBody t.kind base g) ∈ trafBoxes base sdi ex i t offs := by
          unfold trafBoxes
          exact List.mem_cons_of_mem _ (List.mem_cons_of_mem _ (List.mem_append_left _ (List.mem_map.mpr ⟨g, hg, rfl⟩)))
        generalize trafBoxes base sdi ex i t offs = l at hmem
        clear hlen h1 h2 h3
        induction l with
        | nil => cases hmem
        | cons y l ih =>
          rw [enc_cons, List.length_append, List.length_append]
          rcases List.mem_cons.mp hmem with rfl | hmem
          · simp only; omega
          · have := ih hmem; omega
      rw [runBody_length] at this
      have : g.2.length ≤ t.kind.entrySize * g.2.length := Nat.le_mul_of_pos_left _ (by cases t.kind <;> decide)
      omega
    · have hne := runs_none_nonempty g hg
      cases hg2 : g.2 with
      | nil => exact absurd hg2 hne
      | cons e es => exact hb (g.1, e) (hm (g.1, e) (by rw [hg2]; exact List.mem_cons_self))

/-! ## The segment is read -/

theorem trafL_names {base sdi : Nat} {ex : List (Bytes × Bytes)} {o : List (Nat × Frame)} {k : Nat} {ts : List Track} :
    ∀ x ∈ trafL base sdi ex o k ts, x.1 = name 't' 'r' 'a' 'f' := by
  induction ts generalizing k with
  | nil => intro x h; cases h
  | cons t ts ih =>
    intro x h
    rcases List.mem_cons.mp h with rfl | h
    · rfl
    · exact ih x h

/-- The samples of the tracks from `k` on. -/
def expectL (file : Bytes) (p : Nat) (o : List (Nat × Frame)) : Nat → List Track → List (Nat × List Sample)
  | _, [] => []
  | k, t :: ts => (k + 1, Fmp4.expect file p t.kind.version t.earliest (t.at (offsOf k 0 o))) :: expectL file p o (k + 1) ts

theorem mapM_cons {α β : Type} (f : α → Option β) (a : α) (l : List α) : (a :: l).mapM f = (f a).bind fun b => (l.mapM f).map (b :: ·) := by
  rw [List.mapM_cons]
  cases f a with
  | none => rfl
  | some b => cases h : l.mapM f <;> simp

theorem readTrafs {file : Bytes} {mdats : List Box} {base sdi moof : Nat} {ex : List (Bytes × Bytes)} {o : List (Nat × Frame)} {k pos : Nat}
    {ts : List Track} (h : ∀ j (t : Track), ts[j]? = some t → readTraf file mdats moof (enc (trafBoxes base sdi ex (k + j) t (offsOf (k + j) 0 o)))
      = some (k + j + 1, Fmp4.expect file (moof + base) t.kind.version t.earliest (t.at (offsOf (k + j) 0 o)))) :
    (toBoxes pos (trafL base sdi ex o k ts)).mapM (fun b => readTraf file mdats moof b.body) = some (expectL file (moof + base) o k ts) := by
  induction ts generalizing k pos with
  | nil => rfl
  | cons t ts ih =>
    rw [trafL, toBoxes, mapM_cons]
    have h0 := h 0 t rfl
    rw [Nat.add_zero] at h0
    simp only
    rw [h0, ih (k := k + 1)]
    · rfl
    · intro j t' hj
      have := h (j + 1) t' hj
      rwa [show k + (j + 1) = k + 1 + j by omega] at this

theorem preL_names (g : Seg) (sdi xs : Nat) : ∀ x ∈ preL g sdi xs, x.1 = name 's' 't' 'y' 'p' ∨ x.1 = name 'e' 'm' 's' 'g' ∨ x.1 = name 's' 'i' 'd' 'x' := by
  intro x hx
  unfold preL at hx
  rcases List.mem_append.mp hx with hx | hx
  · rcases List.mem_append.mp hx with hx | hx
    · split at hx
      · rw [List.mem_singleton] at hx; rw [hx]; exact Or.inl rfl
      · cases hx
    · split at hx
      · split at hx
        · rw [List.mem_singleton] at hx; rw [hx]; exact Or.inr (Or.inl rfl)
        · cases hx
      · cases hx
  · split at hx
    · rw [List.mem_singleton] at hx; rw [hx]; exact Or.inr (Or.inr rfl)
    · cases hx

theorem preL_kind (g : Seg) (sdi xs : Nat) : ∀ x ∈ preL g sdi xs, x.1.length = 4 ∧ x.1 ≠ kind "moof" ∧ x.1 ≠ kind "mdat" := by
  intro x hx
  rcases preL_names g sdi xs x hx with h | h | h <;> rw [h] <;> decide +kernel

/-- The boxes of the response. -/
def fileL (g : Seg) (sdi xs : Nat) (ex : List (Bytes × Bytes)) (d : Bytes) : List (Bytes × Bytes) :=
  preL g sdi xs ++ [(name 'm' 'o' 'o' 'f', enc (moofL g sdi xs ex)), (name 'm' 'd' 'a' 't', d)]

theorem fileL_length {g : Seg} {sdi xs : Nat} {ex : List (Bytes × Bytes)} {d : Bytes} (hb : bytesOf g.order < uintMax) (hx : (enc ex).length = xs)
    (hd : d.length = bytesOf g.order) : (enc (fileL g sdi xs ex d)).length = totalSize g sdi xs := by
  unfold fileL
  rw [enc_append, enc_cons, enc_cons]
  simp only [List.length_append, preL_length, atom_length (name_length _ _ _ _), hd]
  obtain ⟨_, _, h3, _⟩ := layout_facts hb
  have := moofSize_eq (sdi := sdi) hb hx
  show _ = (sizes g sdi xs).1 + (sizes g sdi xs).2.1 + (sizes g sdi xs).2.2.1 + moofSize g sdi xs (layout g).truns + ((layout g).off + 8)
  have : (enc []).length = 0 := rfl
  omega

theorem fileL_names (g : Seg) (sdi xs : Nat) (ex : List (Bytes × Bytes)) (d : Bytes) : ∀ x ∈ fileL g sdi xs ex d, x.1.length = 4 := by
  intro x hx
  rcases List.mem_append.mp hx with hx | hx
  · exact (preL_kind g sdi xs x hx).1
  · rcases List.mem_cons.mp hx with rfl | hx
    · rfl
    · rw [List.mem_singleton] at hx; rw [hx]; rfl

theorem mem_enc_length {l : List (Bytes × Bytes)} {x : Bytes × Bytes} (h : x ∈ l) : x.2.length ≤ (enc l).length := by
  induction l with
  | nil => cases h
  | cons y l ih =>
    rw [enc_cons, List.length_append, List.length_append]
    rcases List.mem_cons.mp h with rfl | h
    · omega
    · have := ih h; omega

theorem trafL_get {base sdi : Nat} {ex : List (Bytes × Bytes)} {o : List (Nat × Frame)} {k j : Nat} {ts : List Track} {t : Track}
    (h : ts[j]? = some t) :
    (name 't' 'r' 'a' 'f', enc (trafBoxes base sdi ex (k + j) t (offsOf (k + j) 0 o))) ∈ trafL base sdi ex o k ts := by
  induction ts generalizing k j with
  | nil => cases h
  | cons a ts ih =>
    cases j with
    | zero => injection h with h; subst h; exact List.mem_cons_self
    | succ j =>
      have := ih (k := k + 1) (j := j) h
      rw [show k + 1 + j = k + (j + 1) by omega] at this
      exact List.mem_cons_of_mem _ this

/-- The response is read as the tracks, with the samples of their frames. -/
theorem read_fileL {g : Seg} {sdi xs : Nat} {ex : List (Bytes × Bytes)} {d : Bytes} (hb : bytesOf g.order < uintMax) (hx : (enc ex).length = xs)
    (hd : d.length = bytesOf g.order) (hex : ∀ x ∈ ex, x.1.length = 4 ∧ x.1 ≠ kind "trun") (ht : totalSize g sdi xs < 2 ^ 31)
    (hf : ∀ t ∈ g.tracks, t.earliest < 2 ^ 64 ∧ ∀ f ∈ t.frames, f.size < 2 ^ 32 ∧ f.dur < 2 ^ 32 ∧ f.delay < 2 ^ 32) :
    readSegment (enc (fileL g sdi xs ex d)) = some (expectL (enc (fileL g sdi xs ex d))
      ((enc (preL g sdi xs)).length + (moofSize g sdi xs (layout g).truns + 8)) g.order 0 g.tracks) := by
  have hlen := fileL_length (sdi := sdi) hb hx hd
  have hmoof := moofSize_eq (sdi := sdi) hb hx
  have hpre := preL_length g sdi xs
  have htot : totalSize g sdi xs = (enc (preL g sdi xs)).length + moofSize g sdi xs (layout g).truns + (bytesOf g.order + 8) := by
    rw [hpre]
    obtain ⟨_, _, h3, _⟩ := layout_facts hb
    rw [← h3]; rfl
  have hpn : ∀ x ∈ preL g sdi xs, x.1.length = 4 := fun x h => (preL_kind g sdi xs x h).1
  generalize hfile : enc (fileL g sdi xs ex d) = file at *
  unfold readSegment
  rw [← hfile, allBoxes_enc (fileL_names g sdi xs ex d) (by rw [hfile]; omega), hfile]
  show (the "moof" _ >>= fun m => _) = _
  have hbox : toBoxes 0 (fileL g sdi xs ex d) = toBoxes 0 (preL g sdi xs) ++
      [⟨(enc (preL g sdi xs)).length, name 'm' 'o' 'o' 'f', enc (moofL g sdi xs ex)⟩,
        ⟨(enc (preL g sdi xs)).length + moofSize g sdi xs (layout g).truns, name 'm' 'd' 'a' 't', d⟩] := by
    unfold fileL
    rw [toBoxes_append hpn, Nat.zero_add, hmoof]
    rfl
  have h1 : the "moof" (toBoxes 0 (fileL g sdi xs ex d)) = some ⟨(enc (preL g sdi xs)).length, name 'm' 'o' 'o' 'f', enc (moofL g sdi xs ex)⟩ := by
    unfold the
    rw [hbox, List.find?_append, find_none fun x h => (preL_kind g sdi xs x h).2.1, Option.none_or]
    exact find_pos kind_moof
  have h2 : (toBoxes 0 (fileL g sdi xs ex d)).filter (·.kind = kind "mdat")
      = [⟨(enc (preL g sdi xs)).length + moofSize g sdi xs (layout g).truns, name 'm' 'd' 'a' 't', d⟩] := by
    rw [hbox, List.filter_append, filter_none fun x h => (preL_kind g sdi xs x h).2.2, List.nil_append]
    rw [filter_neg ne_mdat, filter_pos kind_mdat]
    rfl
  rw [h1, h2]
  show readMoof _ _ _ = _
  unfold readMoof
  simp only
  have hml : (enc (moofL g sdi xs ex)).length < 2 ^ 31 := by omega
  have hmn : ∀ x ∈ moofL g sdi xs ex, x.1.length = 4 := by
    intro x h
    rcases List.mem_cons.mp h with rfl | h
    · rfl
    · rw [trafL_names x h]; rfl
  rw [allBoxes_enc hmn (by omega)]
  show List.mapM _ (List.filter _ _) = _
  have h3 : (toBoxes 0 (moofL g sdi xs ex)).filter (·.kind = kind "traf")
      = toBoxes (0 + (8 + (be32 0 ++ be32 g.index).length)) (trafL (moofSize g sdi xs (layout g).truns + 8) sdi ex g.order 0 g.tracks) := by
    unfold moofL
    rw [toBoxes, filter_neg ne_traf, filter_all fun x h => by rw [trafL_names x h]; decide +kernel]
  rw [h3]
  apply readTrafs
  intro j t hj
  rw [Nat.zero_add]
  have hof := ofStream_order hj
  have hbd := at_bound hof
  obtain ⟨he, hfr⟩ := hf t (List.mem_of_getElem? hj)
  have hjl := (List.getElem?_eq_some_iff.mp hj).1
  have hmem := trafL_get (base := moofSize g sdi xs (layout g).truns + 8) (sdi := sdi) (ex := ex) (o := g.order) (k := 0) hj
  have htl := mem_enc_length (List.mem_cons_of_mem (name 'm' 'f' 'h' 'd', be32 0 ++ be32 g.index) hmem)
  rw [Nat.zero_add] at htl
  have htl' : (enc (trafBoxes (moofSize g sdi xs (layout g).truns + 8) sdi ex j t (offsOf j 0 g.order))).length ≤ (enc (moofL g sdi xs ex)).length := htl
  have hcount : g.tracks.length ≤ moofSize g sdi xs (layout g).truns := by
    unfold moofSize
    have : g.tracks.length ≤ (8 + (if 0 < sdi then 20 else 16) + (8 + 12) + xs) * g.tracks.length := Nat.le_mul_of_pos_left _ (by omega)
    omega
  apply readTraf_box (by omega) (by omega) he hfr hex
  · intro x hx'
    have := hbd x hx'
    simp only [List.any_cons, List.any_nil, Bool.or_false, decide_eq_true_eq]
    omega
  · intro x hx'
    have := hbd x hx'
    omega

end Verif.Fmp4
