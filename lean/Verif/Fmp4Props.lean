import Verif.Fmp4Read
import Verif.MtsProps

/-!
# Properties of fMP4 segments
-/

namespace Verif.Fmp4

open Fmp4Spec (num slice Box boxes allBoxes kind the Sample Entry signed readSegment cut shown readSidx readEmsg Index Event cstr)

/-! ## Lists of samples -/

theorem expect_data (file : Bytes) (p v : Nat) (t : Int) (fs : List (Nat × Entry)) :
    (Fmp4.expect file p v t fs).map (·.data) = (fs.map fun x => (x.1, x.2.size)).map fun x => slice file (p + x.1) x.2 := by
  induction fs generalizing t with
  | nil => rfl
  | cons x fs ih => simp only [Fmp4.expect, List.map_cons, ih]

theorem expect_dur (file : Bytes) (p v : Nat) (t : Int) (fs : List (Nat × Entry)) :
    (Fmp4.expect file p v t fs).map (·.dur) = (fs.map (·.2)).map (·.dur) := by
  induction fs generalizing t with
  | nil => rfl
  | cons x fs ih => simp only [Fmp4.expect, List.map_cons, ih]

theorem expect_sync (file : Bytes) (p v : Nat) (t : Int) (fs : List (Nat × Entry)) :
    (Fmp4.expect file p v t fs).map (·.sync) = (fs.map (·.2)).map fun e => !e.flags.testBit 16 := by
  induction fs generalizing t with
  | nil => rfl
  | cons x fs ih => simp only [Fmp4.expect, List.map_cons, ih]

/-- The times of entries. -/
def ptsOf (v : Nat) : Int → List Entry → List Int
  | _, [] => []
  | t, e :: es => (t + (if v = 0 then (e.cts : Int) else signed e.cts)) :: ptsOf v (t + e.dur) es

theorem expect_pts (file : Bytes) (p v : Nat) (t : Int) (fs : List (Nat × Entry)) :
    (Fmp4.expect file p v t fs).map (·.pts) = ptsOf v t (fs.map (·.2)) := by
  induction fs generalizing t with
  | nil => rfl
  | cons x fs ih => simp only [Fmp4.expect, List.map_cons, ih, ptsOf]

/-- The decoding times of entries. -/
def dtsOf : Int → List Entry → List Int
  | _, [] => []
  | t, e :: es => t :: dtsOf (t + e.dur) es

theorem expect_dts (file : Bytes) (p v : Nat) (t : Int) (fs : List (Nat × Entry)) :
    (Fmp4.expect file p v t fs).map (·.dts) = dtsOf t (fs.map (·.2)) := by
  induction fs generalizing t with
  | nil => rfl
  | cons x fs ih => simp only [Fmp4.expect, List.map_cons, ih, dtsOf]

theorem at_snd {t : Track} {o : List (Nat × Frame)} {i : Nat} (h : ofStream i o = t.frames) : (t.at (offsOf i 0 o)).map (·.2) = t.es := by
  unfold Track.at
  rw [List.map_snd_zip]
  rw [offsOf_length, h, es_length]
  exact Nat.le_refl _

theorem datas_cut (mem : Nat → UInt8) (p : Nat) (fs : List Frame) : datas mem p fs = cut mem p (fs.map (·.size)) := by
  induction fs generalizing p with
  | nil => rfl
  | cons f fs ih => simp only [datas, List.map_cons, cut, ih]; rfl

theorem expectL_get {file : Bytes} {p : Nat} {o : List (Nat × Frame)} {k j : Nat} {ts : List Track} {t : Track} (h : ts[j]? = some t) :
    (expectL file p o k ts)[j]? = some (k + j + 1, Fmp4.expect file p t.kind.version t.earliest (t.at (offsOf (k + j) 0 o))) := by
  induction ts generalizing k j with
  | nil => cases h
  | cons a ts ih =>
    cases j with
    | zero => injection h with h; subst h; rfl
    | succ j =>
      have := ih (k := k + 1) (j := j) h
      rw [show k + 1 + j = k + (j + 1) by omega] at this
      exact this

theorem expectL_ids (file : Bytes) (p : Nat) (o : List (Nat × Frame)) (k : Nat) (ts : List Track) :
    (expectL file p o k ts).map (·.1) = List.range' (k + 1) ts.length := by
  induction ts generalizing k with
  | nil => rfl
  | cons t ts ih => simp only [expectL, List.map_cons, ih, List.length_cons, List.range'_succ]

/-! ## Entries of tracks -/

theorem cueEs_dur (d : Nat) (fs : List Frame) : (cueEs d fs).map (·.dur) = fs.map (·.delay) := by
  induction fs generalizing d with
  | nil => rfl
  | cons f fs ih => simp only [cueEs, List.map_cons, ih]

theorem cueEs_flags (d : Nat) (fs : List Frame) : (cueEs d fs).map (fun e => !e.flags.testBit 16) = fs.map fun _ => true := by
  induction fs generalizing d with
  | nil => rfl
  | cons f fs ih => simp only [cueEs, List.map_cons, ih, Nat.zero_testBit, Bool.not_false]

theorem key_flags (b : Bool) : (!(if b then 0x02000000 else 0x01010000 : Nat).testBit 16) = b := by
  cases b <;> decide +kernel

theorem es_sync (t : Track) : (t.es.map fun e => !e.flags.testBit 16) = t.frames.map fun f => if t.kind = .video then f.key else true := by
  unfold Track.es
  cases hk : t.kind with
  | video =>
    simp only [List.map_map]
    apply List.map_congr_left
    intro f _
    simp only [Function.comp, key_flags, if_true]
  | audio =>
    simp only [List.map_map]
    apply List.map_congr_left
    intro f _
    simp
  | cue => simp only [cueEs_flags]; apply List.map_congr_left; intro f _; simp

theorem es_dur (t : Track) : (t.es.map (·.dur)) = t.frames.map fun f => if t.kind = .cue then f.delay else f.dur := by
  unfold Track.es
  cases hk : t.kind with
  | video =>
    simp only [List.map_map]
    apply List.map_congr_left
    intro f _
    simp
  | audio =>
    simp only [List.map_map]
    apply List.map_congr_left
    intro f _
    simp
  | cue => simp only [cueEs_dur]; apply List.map_congr_left; intro f _; simp

theorem signed_u32 {a b : Nat} (ha : a < 2 ^ 31) (hb : b < 2 ^ 31) : signed (u32 ((a : Int) - b)) = (a : Int) - b := by
  unfold signed u32
  split <;> omega

theorem pts_video {t : Track} (hk : t.kind = .video) (h : ∀ f ∈ t.frames, f.delay < 2 ^ 31) (s : Int) :
    ptsOf t.kind.version (s + t.initial) t.es = shown s (t.frames.map fun f => (f.dur, f.delay)) := by
  have hi : t.initial < 2 ^ 31 := by
    unfold Track.initial
    split
    · exact Nat.two_pow_pos 31
    · rename_i f fs he; exact h f (by rw [he]; exact List.mem_cons_self)
  unfold Track.es
  rw [hk]
  have hv : Kind.version .video ≠ 0 := by decide
  simp only
  generalize t.initial = a at hi
  revert h
  generalize t.frames = fs
  intro h
  induction fs generalizing s with
  | nil => rfl
  | cons f fs ih =>
    have := ih (s + f.dur) fun x hx => h x (List.mem_cons_of_mem _ hx)
    simp only [List.map_cons, ptsOf, shown, if_neg hv]
    rw [signed_u32 (h f List.mem_cons_self) hi, show s + a + ((f.delay : Int) - a) = s + f.delay by omega,
      show s + a + (f.dur : Int) = s + f.dur + a by omega, this]

theorem pts_audio {t : Track} (hk : t.kind = .audio) (s : Int) :
    ptsOf t.kind.version s t.es = shown s (t.frames.map fun f => (f.dur, 0)) := by
  unfold Track.es
  rw [hk]
  simp only
  generalize t.frames = fs
  induction fs generalizing s with
  | nil => rfl
  | cons f fs ih =>
    simp only [List.map_cons, ptsOf, shown, ih]
    rfl

/-! ## The response -/

theorem earliest_lt {t : Track} (h : t.start + t.initial < 2 ^ 63) : t.earliest < 2 ^ 63 := by
  unfold Track.earliest
  unfold Track.initial at h
  split
  · rename_i hf; rw [hf] at h; simp only at h; omega
  · split at h <;> omega

theorem size_lt {g : Seg} (h : g.Fits) {t : Track} (ht : t ∈ g.tracks) {f : Frame} (hf : f ∈ t.frames) : f.size < 2 ^ 31 := by
  have h1 : f.size ≤ (t.frames.map (·.size)).sum := le_sum (List.mem_map.mpr ⟨f, hf, rfl⟩)
  have h2 : (t.frames.map (·.size)).sum ≤ (g.tracks.map fun t => (t.frames.map (·.size)).sum).sum := le_sum (List.mem_map.mpr ⟨t, ht, rfl⟩)
  rw [← bytesOf_seg] at h2
  have h3 := h.size
  rw [bound_eq] at h3
  omega

/-- The data of the segment. -/
def Seg.data (g : Seg) (mem : Nat → UInt8) : Bytes := dataOf mem (g.tracks.map (·.addr)) g.order

/-- The bytes of the response. -/
def Seg.file (g : Seg) (mem : Nat → UInt8) : Bytes := enc (fileL g 1 0 [] (g.data mem))

theorem response_file (mem : Nat → UInt8) {g : Seg} (h : g.Fits) : response mem g = .ok (g.file mem) :=
  response_eq mem (fits_bytes h) h.avail

theorem file_length (mem : Nat → UInt8) {g : Seg} (h : g.Fits) : (g.file mem).length = totalSize g 1 0 :=
  fileL_length (fits_bytes h) rfl (dataOf_length _ _ _)

/-- Where the data starts. -/
def Seg.dataPos (g : Seg) : Nat := (enc (preL g 1 0)).length + (moofSize g 1 0 (layout g).truns + 8)

theorem read_file (mem : Nat → UInt8) {g : Seg} (h : g.Fits) :
    readSegment (g.file mem) = some (expectL (g.file mem) g.dataPos g.order 0 g.tracks) := by
  have hs := h.size
  have hm := total_le h
  have hx : (enc []).length = 0 := rfl
  have hd : (g.data mem).length = bytesOf g.order := dataOf_length _ _ _
  refine read_fileL (g := g) (sdi := 1) (xs := 0) (ex := []) (d := g.data mem) (fits_bytes h) hx hd (fun x hx => by cases hx) (by omega) ?_
  intro t ht
  have := earliest_lt (h.start t ht)
  refine ⟨by omega, ?_⟩
  intro f hf
  have h1 := size_lt h ht hf
  have h2 := h.frame t ht f hf
  omega

theorem slice_data (mem : Nat → UInt8) {g : Seg} (h : g.Fits) (o n : Nat) : slice (g.file mem) (g.dataPos + o) n = slice (g.data mem) o n := by
  unfold slice
  congr 1
  have hf : g.file mem = (enc (preL g 1 0) ++ (atom (8 + (enc (moofL g 1 0 [])).length) (name 'm' 'o' 'o' 'f') ++ enc (moofL g 1 0 []) ++
      atom (8 + (g.data mem).length) (name 'm' 'd' 'a' 't'))) ++ g.data mem := by
    unfold Seg.file fileL
    rw [enc_append, enc_cons, enc_cons]
    show _ ++ (_ ++ _ ++ (_ ++ _ ++ [])) = _
    simp only [List.append_assoc, List.append_nil]
  rw [hf, ← List.drop_drop]
  congr 1
  apply List.drop_left'
  unfold Seg.dataPos
  simp only [List.length_append, atom_length (name_length _ _ _ _)]
  have hx : (enc []).length = 0 := rfl
  have := moofSize_eq (sdi := 1) (xs := 0) (fits_bytes h) (ex := []) hx
  omega

/-- C94: the response is a segment from which a reader gets every track of the request, in their order, with every frame: its data, its
duration (of a cue: the time it is shown), and for video whether it is a key frame. -/
theorem segment_frames (mem : Nat → UInt8) {g : Seg} (h : g.Fits) :
    ∃ file tracks, response mem g = .ok file ∧ readSegment file = some tracks ∧
      tracks.map (·.1) = List.range' 1 g.tracks.length ∧
      ∀ i t, g.tracks[i]? = some t → ∃ ss, tracks[i]? = some (i + 1, ss) ∧
        ss.map (·.data) = cut mem t.addr (t.frames.map (·.size)) ∧
        ss.map (·.dur) = (t.frames.map fun f => if t.kind = .cue then f.delay else f.dur) ∧
        ss.map (·.sync) = (t.frames.map fun f => if t.kind = .video then f.key else true) := by
  refine ⟨g.file mem, _, response_file mem h, read_file mem h, expectL_ids _ _ _ _ _, ?_⟩
  intro i t hi
  have hof := ofStream_order hi
  have hg := expectL_get (file := g.file mem) (p := g.dataPos) (o := g.order) (k := 0) hi
  rw [Nat.zero_add] at hg
  refine ⟨_, hg, ?_, ?_, ?_⟩
  · rw [expect_data, at_places hof]
    have := data_places mem (o := g.order) (ps := g.tracks.map (·.addr)) (pre := []) (post := []) (i := i) (p := t.addr) (by simp [hi])
    rw [hof, datas_cut] at this
    rw [← this]
    apply List.map_congr_left
    intro x _
    rw [slice_data mem h]
    simp only [List.nil_append, List.append_nil]
    rfl
  · rw [expect_dur, at_snd hof, es_dur]
  · rw [expect_sync, at_snd hof, es_sync]

/-- C95: the header fills its buffer exactly, whatever the segment is, and the response has the size that was announced. -/
theorem segment_size (mem : Nat → UInt8) {g : Seg} (h : g.Fits) :
    (∃ b, header g 1 0 (fun _ => []) = .ok b) ∧ ∃ file, response mem g = .ok file ∧ file.length = totalSize g 1 0 :=
  ⟨⟨_, header_ok (ex := fun _ => []) (fits_bytes h) fun _ => rfl⟩, _, response_file mem h, file_length mem h⟩

theorem earliest_video {t : Track} (hk : t.kind = .video) (hf : t.frames ≠ []) (h : 0 ≤ t.start + t.initial) :
    (t.earliest : Int) = t.start + t.initial := by
  unfold Track.earliest
  unfold Track.initial at *
  rw [hk]
  cases hfs : t.frames with
  | nil => exact absurd hfs hf
  | cons f fs => rw [hfs] at h; simp only at *; omega

/-- C96, part: frames of video and audio are shown at the time that their track gives them, unless the times are negative;
a segment with one cue shows it at its time. -/
theorem segment_times_partial (mem : Nat → UInt8) {g : Seg} (h : g.Fits) :
    ∃ file tracks, response mem g = .ok file ∧ readSegment file = some tracks ∧
      ∀ i t, g.tracks[i]? = some t → ∃ ss, tracks[i]? = some (i + 1, ss) ∧
        (t.kind = .video → (0 : Int) ≤ t.start + t.initial → ss.map (·.pts) = shown t.start (t.frames.map fun f => (f.dur, f.delay))) ∧
        (t.kind = .audio → 0 ≤ t.start → ss.map (·.pts) = shown t.start (t.frames.map fun f => (f.dur, 0))) ∧
        (t.kind = .cue → 0 ≤ t.start → t.frames.length ≤ 1 → ss.map (·.pts) = shown t.start (t.frames.map fun f => (f.dur, 0))) := by
  refine ⟨g.file mem, _, response_file mem h, read_file mem h, ?_⟩
  intro i t hi
  have hof := ofStream_order hi
  have hm := List.mem_of_getElem? hi
  have hg := expectL_get (file := g.file mem) (p := g.dataPos) (o := g.order) (k := 0) hi
  rw [Nat.zero_add] at hg
  refine ⟨_, hg, ?_, ?_, ?_⟩
  · intro hk h0
    rw [expect_pts, at_snd hof]
    by_cases hf : t.frames = []
    · unfold Track.es
      rw [hk]
      simp only [hf, List.map_nil]
      rfl
    · rw [earliest_video hk hf h0]
      exact pts_video hk (fun f hf => (h.frame t hm f hf).2) t.start
  · intro hk h0
    rw [expect_pts, at_snd hof]
    have : (t.earliest : Int) = t.start := by
      unfold Track.earliest
      rw [hk]
      simp only
      omega
    rw [this]
    exact pts_audio hk t.start
  · intro hk h0 hl
    rw [expect_pts, at_snd hof]
    have : (t.earliest : Int) = t.start := by
      unfold Track.earliest
      rw [hk]
      simp only
      omega
    rw [this]
    unfold Track.es
    rw [hk]
    simp only
    match hf : t.frames, hl with
    | [], _ => rfl
    | [f], _ => rfl

/-! ## Index -/

theorem fold_durs (fs : List Frame) (a : Nat) : (fs.foldl (fun d f => (d + f.dur) % 2 ^ 64) (a % 2 ^ 64)) = (a + (fs.map (·.dur)).sum) % 2 ^ 64 := by
  induction fs generalizing a with
  | nil => rfl
  | cons f fs ih =>
    rw [List.foldl_cons, Nat.mod_add_mod, ih, List.map_cons, List.sum_cons, Nat.add_assoc]

theorem u64_mod (x : Int) : u64 x % 2 ^ 64 = u64 x := by
  unfold u64
  omega

theorem totalDur_eq {g : Seg} (h : g.Fits) {t : Track} {ts : List Track} (ht : g.tracks = t :: ts) (hd : (t.frames.map (·.dur)).sum < 2 ^ 64) :
    totalDur g = (t.frames.map (·.dur)).sum := by
  obtain ⟨h1, _, _, _⟩ := layout_facts (fits_bytes h)
  obtain ⟨s, h2, _, h3⟩ := h1 0 t (by rw [ht]; rfl)
  have h4 := fold_durs t.frames (u64 t.start)
  rw [u64_mod] at h4
  rw [h4] at h3
  unfold totalDur
  rw [ht]
  cases hs : (layout g).strs with
  | nil => rw [hs] at h2; cases h2
  | cons s' ss =>
    rw [hs] at h2
    injection h2 with h2
    subst h2
    simp only
    rw [h3]
    generalize (t.frames.map (·.dur)).sum = d at hd
    unfold u64
    omega

theorem find_app {pos : Nat} {l : List (Bytes × Bytes)} {x : Bytes × Bytes} {r : List (Bytes × Bytes)} {k : Bytes}
    (hl : ∀ y ∈ l, y.1.length = 4 ∧ y.1 ≠ k) (hx : x.1 = k) :
    (toBoxes pos (l ++ x :: r)).find? (fun b => decide (b.kind = k)) = some ⟨pos + (enc l).length, x.1, x.2⟩ := by
  rw [toBoxes_append fun y h => (hl y h).1, List.find?_append, find_none fun y h => (hl y h).2, Option.none_or, toBoxes, find_pos hx]

/-- The first two boxes of `preL`. -/
def stypL (g : Seg) : List (Bytes × Bytes) :=
  if g.tracks.length = 1 then
    [(name 's' 't' 'y' 'p', name 'm' 's' 'd' 'h' ++ be32 0 ++ name 'm' 's' 'd' 'h' ++ name 'm' 's' 'i' 'x')] else []

def emsgBody (g : Seg) (t : Track) : Bytes :=
  be32 0x01000000 ++ be32 t.timescale ++ be64 t.start.toNat ++ be32 1 ++
    be32 g.index ++ scheme ++ [0] ++ [0] ++ (Mts.id3Header g.info.length ++ g.info)

def emsgL (g : Seg) : List (Bytes × Bytes) :=
  match g.tracks with
    | t :: _ => if g.info ≠ [] ∧ t.frames ≠ [] then [(name 'e' 'm' 's' 'g', emsgBody g t)] else []
    | [] => []

def sidxBody (g : Seg) (t : Track) : Bytes :=
  if uintMax < t.earliest then
    be32 0x01000000 ++ be32 1 ++ be32 t.timescale ++ be64 t.earliest ++ be64 0 ++ be32 1 ++
      be32 (moofSize g 1 0 (layout g).truns + ((layout g).off + 8)) ++ be32 (totalDur g) ++ be32 0x90000000
  else
    be32 0 ++ be32 1 ++ be32 t.timescale ++ be32 t.earliest ++ be32 0 ++ be32 1 ++
      be32 (moofSize g 1 0 (layout g).truns + ((layout g).off + 8)) ++ be32 (totalDur g) ++ be32 0x90000000

theorem preL_one {g : Seg} {t : Track} (ht : g.tracks = [t]) :
    preL g 1 0 = stypL g ++ emsgL g ++ [(name 's' 'i' 'd' 'x', sidxBody g t)] := by
  unfold preL stypL emsgL sidxBody emsgBody
  rw [ht]

theorem preL_emsg {g : Seg} : ∃ r, preL g 1 0 = stypL g ++ (emsgL g ++ r) := by
  unfold preL stypL emsgL emsgBody
  exact ⟨_, List.append_assoc _ _ _⟩

theorem stypL_names (g : Seg) : ∀ x ∈ stypL g, x.1 = name 's' 't' 'y' 'p' := by
  intro x hx
  unfold stypL at hx
  split at hx
  · rw [List.mem_singleton] at hx; rw [hx]
  · cases hx

theorem emsgL_names (g : Seg) : ∀ x ∈ emsgL g, x.1 = name 'e' 'm' 's' 'g' := by
  intro x hx
  unfold emsgL at hx
  split at hx
  · split at hx
    · rw [List.mem_singleton] at hx; rw [hx]
    · cases hx
  · cases hx

theorem readSidx_body {g : Seg} {t : Track} (hts : t.timescale < 2 ^ 32) (he : t.earliest < 2 ^ 64)
    (hs : moofSize g 1 0 (layout g).truns + ((layout g).off + 8) < 2 ^ 31) (hd : totalDur g < 2 ^ 32) :
    readSidx (sidxBody g t) = some ⟨t.timescale, t.earliest, 0, moofSize g 1 0 (layout g).truns + ((layout g).off + 8), totalDur g⟩ := by
  unfold sidxBody
  generalize moofSize g 1 0 (layout g).truns + ((layout g).off + 8) = sz at hs
  generalize totalDur g = d at hd
  generalize t.earliest = e at he
  generalize t.timescale = ts at hts
  have hs' : num (be32 sz) % 2 ^ 31 = sz := by rw [num_be32_lt (by omega), Nat.mod_eq_of_lt hs]
  split
  · have h1 : num ((be32 0x01000000 ++ be32 1 ++ be32 ts ++ be64 e ++ be64 0 ++ be32 1 ++ be32 sz ++ be32 d ++ be32 0x90000000).take 1) = 1 := by
      show num ((be32 0x01000000).take 1) = 1
      decide +kernel
    have h2 : num (slice (be32 0x01000000 ++ be32 1 ++ be32 ts ++ be64 e ++ be64 0 ++ be32 1 ++ be32 sz ++ be32 d ++ be32 0x90000000) 30 2) = 1 := by
      show num ((be32 1).drop 2) = 1
      decide +kernel
    unfold readSidx
    rw [if_neg (by rw [h1]; simp), if_pos ⟨h1, rfl, h2⟩]
    show some (Index.mk (num (be32 ts)) (num (be64 e)) (num (be64 0)) (num (be32 sz) % 2 ^ 31) (num (be32 d))) = _
    rw [hs', num_be32_lt hts, num_be32_lt hd, num_be64, Nat.mod_eq_of_lt he, num_be64]
  · rename_i hle
    have hu : uintMax = 2 ^ 32 - 1 := rfl
    have h1 : num ((be32 0 ++ be32 1 ++ be32 ts ++ be32 e ++ be32 0 ++ be32 1 ++ be32 sz ++ be32 d ++ be32 0x90000000).take 1) = 0 := by
      show num ((be32 0).take 1) = 0
      decide +kernel
    have h2 : num (slice (be32 0 ++ be32 1 ++ be32 ts ++ be32 e ++ be32 0 ++ be32 1 ++ be32 sz ++ be32 d ++ be32 0x90000000) 22 2) = 1 := by
      show num ((be32 1).drop 2) = 1
      decide +kernel
    unfold readSidx
    rw [if_pos ⟨h1, rfl, h2⟩]
    show some (Index.mk (num (be32 ts)) (num (be32 e)) (num (be32 0)) (num (be32 sz) % 2 ^ 31) (num (be32 d))) = _
    rw [hs', num_be32_lt hts, num_be32_lt hd, num_be32_lt (n := e) (by omega), num_be32]

/-- C97, part: the index of a segment with one track refers to all that is after it, has the timescale and the duration of the
track, and the time at which the first frame is shown. -/
theorem segment_index_partial (mem : Nat → UInt8) {g : Seg} {t : Track} (h : g.Fits) (ht : g.tracks = [t]) (hts : t.timescale < 2 ^ 32)
    (hd : (t.frames.map (·.dur)).sum < 2 ^ 32) :
    ∃ file bs b x, response mem g = .ok file ∧ allBoxes 0 file = some bs ∧ the "sidx" bs = some b ∧ readSidx b.body = some x ∧
      x.timescale = t.timescale ∧ x.dur = (t.frames.map (·.dur)).sum ∧
      b.pos + 8 + b.body.length + x.offset + x.size = file.length ∧
      (t.kind = .video → t.frames ≠ [] → (0 : Int) ≤ t.start + t.initial → (shown t.start (t.frames.map fun f => (f.dur, f.delay))).head? = some (x.earliest : Int)) ∧
      (t.kind ≠ .video → 0 ≤ t.start → (x.earliest : Int) = t.start) := by
  have hs := h.size
  have hm := total_le h
  have hlen := file_length mem h
  have htd := totalDur_eq h ht (by omega)
  have hpre := preL_length g 1 0
  have htot : totalSize g 1 0 = (enc (preL g 1 0)).length + moofSize g 1 0 (layout g).truns + ((layout g).off + 8) := by
    rw [hpre]; rfl
  have he := earliest_lt (h.start t (by rw [ht]; exact List.mem_cons_self))
  have hn : ∀ y ∈ stypL g ++ emsgL g, y.1.length = 4 ∧ y.1 ≠ kind "sidx" := by
    intro y hy
    rcases List.mem_append.mp hy with hy | hy
    · rw [stypL_names g y hy]; decide +kernel
    · rw [emsgL_names g y hy]; decide +kernel
  refine ⟨g.file mem, _, ⟨(enc (stypL g ++ emsgL g)).length, name 's' 'i' 'd' 'x', sidxBody g t⟩, _, response_file mem h,
    allBoxes_enc (fileL_names g 1 0 [] _) (by rw [Seg.file] at hlen; omega), ?_, readSidx_body hts (by omega) (by omega) (by omega), rfl, htd, ?_, ?_, ?_⟩
  · unfold the fileL
    rw [preL_one ht, List.append_assoc]
    have hk : name 's' 'i' 'd' 'x' = kind "sidx" := by decide +kernel
    have := find_app (pos := 0) (r := [(name 'm' 'o' 'o' 'f', enc (moofL g 1 0 [])), (name 'm' 'd' 'a' 't', g.data mem)])
      (x := (name 's' 'i' 'd' 'x', sidxBody g t)) hn hk
    rw [Nat.zero_add] at this
    exact this
  · have h1 : (enc [(name 's' 'i' 'd' 'x', sidxBody g t)]).length = 8 + (sidxBody g t).length := by
      rw [enc_cons]
      simp only [List.length_append, atom_length (name_length _ _ _ _)]
      rfl
    rw [hlen, htot, preL_one ht, enc_append _ [_], List.length_append, h1]
    simp only
    omega
  · intro hk hf h0
    simp only
    rw [earliest_video hk hf h0]
    unfold Track.initial
    cases hfs : t.frames with
    | nil => exact absurd hfs hf
    | cons f fs => rfl
  · intro hk h0
    simp only
    unfold Track.earliest
    cases hk' : t.kind with
    | video => exact absurd hk' hk
    | audio => simp only; omega
    | cue => simp only; omega

/-! ## Metadata -/

theorem cstr_append {s r : Bytes} (h : (0 : UInt8) ∉ s) : cstr (s ++ 0 :: r) = some (s, r) := by
  induction s with
  | nil => rfl
  | cons c s ih =>
    rw [List.cons_append, cstr, if_neg (by intro hc; exact h (by rw [hc]; exact List.mem_cons_self)), ih fun hm => h (List.mem_cons_of_mem _ hm)]
    rfl

theorem scheme_no_null : (0 : UInt8) ∉ scheme := by decide +kernel

theorem readEmsg_body (g : Seg) (t : Track) (hts : t.timescale < 2 ^ 32) (hst : t.start < 2 ^ 64) (hi : g.index < 2 ^ 32) :
    readEmsg (emsgBody g t) = some ⟨t.timescale, t.start.toNat, 1, g.index, scheme, [], MtsSpec.id3Tag g.info⟩ := by
  unfold emsgBody
  rw [Mts.id3_bytes]
  generalize MtsSpec.id3Tag g.info = tag
  have hb : be32 0x01000000 ++ be32 t.timescale ++ be64 t.start.toNat ++ be32 1 ++ be32 g.index ++ scheme ++ [0] ++ [0] ++ tag
      = (be32 0x01000000 ++ be32 t.timescale ++ be64 t.start.toNat ++ be32 1 ++ be32 g.index) ++ (scheme ++ 0 :: 0 :: tag) := by
    simp only [List.append_assoc, List.cons_append, List.nil_append]
  rw [hb]
  generalize hr : scheme ++ 0 :: 0 :: tag = r
  have h1 : num ((be32 0x01000000 ++ be32 t.timescale ++ be64 t.start.toNat ++ be32 1 ++ be32 g.index ++ r).take 1) = 1 := by
    show num ((be32 0x01000000).take 1) = 1
    decide +kernel
  have h2 : 24 ≤ (be32 0x01000000 ++ be32 t.timescale ++ be64 t.start.toNat ++ be32 1 ++ be32 g.index ++ r).length := by
    simp only [List.length_append, be32_length, be64_length]; omega
  have h3 : (be32 0x01000000 ++ be32 t.timescale ++ be64 t.start.toNat ++ be32 1 ++ be32 g.index ++ r).drop 24 = r := rfl
  unfold readEmsg
  rw [if_pos ⟨h1, h2⟩, h3, ← hr, cstr_append scheme_no_null]
  show some (Event.mk (num (be32 t.timescale)) (num (be64 t.start.toNat)) (num (be32 1)) (num (be32 g.index)) scheme [] tag) = _
  rw [num_be32_lt hts, num_be64, num_be32_lt hi, num_be32_lt (by decide), Nat.mod_eq_of_lt (by omega)]

/-- C98: when the segment has metadata and its first track has frames, the response has one event, with the scheme that names
ID3, whose message is an ID3 tag with exactly the metadata, at the start of the first track; when there is no metadata there is no event. -/
theorem segment_event (mem : Nat → UInt8) {g : Seg} {t : Track} {ts : List Track} (h : g.Fits) (ht : g.tracks = t :: ts) (hts : t.timescale < 2 ^ 32)
    (h0 : 0 ≤ t.start) (hi : g.index < 2 ^ 32) (hf : t.frames ≠ []) :
    ∃ file bs, response mem g = .ok file ∧ allBoxes 0 file = some bs ∧
      (g.info = [] → the "emsg" bs = none) ∧
      (g.info ≠ [] → ∃ b e, the "emsg" bs = some b ∧ readEmsg b.body = some e ∧ e.timescale = t.timescale ∧ (e.time : Int) = t.start ∧
        e.id = g.index ∧ e.scheme = kind "https://developer.apple.com/streaming/emsg-id3" ∧ e.value = [] ∧ e.message = MtsSpec.id3Tag g.info) := by
  have hs := h.size
  have hm := total_le h
  have hlen := file_length mem h
  have hst := h.start t (by rw [ht]; exact List.mem_cons_self)
  refine ⟨g.file mem, _, response_file mem h, allBoxes_enc (fileL_names g 1 0 [] _) (by rw [Seg.file] at hlen; omega), ?_, ?_⟩
  · intro hinfo
    have hne : name 's' 't' 'y' 'p' ≠ kind "emsg" ∧ name 's' 'i' 'd' 'x' ≠ kind "emsg" ∧ name 'm' 'o' 'o' 'f' ≠ kind "emsg" ∧
        name 'm' 'd' 'a' 't' ≠ kind "emsg" := by decide +kernel
    apply find_none
    intro x hx
    rcases List.mem_append.mp hx with hx | hx
    · unfold preL at hx
      rw [ht] at hx
      rcases List.mem_append.mp hx with hx | hx
      · rcases List.mem_append.mp hx with hx | hx
        · split at hx
          · rw [List.mem_singleton] at hx; rw [hx]; exact hne.1
          · cases hx
        · simp [hinfo] at hx
      · split at hx
        · rw [List.mem_singleton] at hx; rw [hx]; exact hne.2.1
        · cases hx
    · rcases List.mem_cons.mp hx with rfl | hx
      · exact hne.2.2.1
      · rw [List.mem_singleton] at hx; rw [hx]; exact hne.2.2.2
  · intro hinfo
    obtain ⟨r, hr⟩ := preL_emsg (g := g)
    have hl : emsgL g = [(name 'e' 'm' 's' 'g', emsgBody g t)] := by
      unfold emsgL
      rw [ht]
      simp only
      rw [if_pos ⟨hinfo, hf⟩]
    have hn : ∀ y ∈ stypL g, y.1.length = 4 ∧ y.1 ≠ kind "emsg" := by
      intro y hy
      rw [stypL_names g y hy]; decide +kernel
    have hk : name 'e' 'm' 's' 'g' = kind "emsg" := by decide +kernel
    refine ⟨⟨0 + (enc (stypL g)).length, name 'e' 'm' 's' 'g', emsgBody g t⟩, _, ?_, readEmsg_body g t hts ?_ hi, rfl, ?_, rfl, rfl, rfl, rfl⟩
    · unfold the fileL
      rw [hr, hl, List.append_assoc]
      exact find_app hn hk
    · unfold Track.initial at hst
      split at hst <;> omega
    · simp only; omega

end Verif.Fmp4
