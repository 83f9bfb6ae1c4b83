import Verif.CencFileRead

/-!
# Properties of encrypted segments

C103 and C104.
-/

namespace Verif.CencFile

open Fmp4 (Bytes Seg Track Frame be32 atom name enc toBoxes trafBoxes fileL preL moofL moofSize layout bytesOf offsOf places uintMax totalSize)
open Fmp4Spec (num slice Box allBoxes kind the Sample readSegment cut Entry)
open CencFileSpec
open Cenc (Cipher Par be64 beN subOf Units Fit sliced stream xorAt plain unit entry entries outs outsA encUnits)

/-! ## Files -/

/-- The size of the boxes of encryption. -/
abbrev extra (z : UInt8 × Nat × Bytes) (aux : Bytes) : Nat := 17 + z.2.2.length + 20 + 16 + aux.length

/-- The bytes of an encrypted segment. -/
def file (g : Seg) (z : UInt8 × Nat × Bytes) (flags n : Nat) (aux : Bytes) (D : List Bytes) : Bytes :=
  enc (fileL g 0 (extra z aux) (exL z (moofSize g 0 (extra z aux) (layout g).truns - aux.length) flags n aux) D.flatten)

theorem total_lt {g : Seg} {t : Track} (hg : g.tracks = [t]) (h : g.Fits) {z : UInt8 × Nat × Bytes} {aux : Bytes} (hs : g.bound + extra z aux < 2 ^ 31) :
    totalSize g 0 (extra z aux) < 2 ^ 31 := by
  have h1 := total_one hg (extra z aux)
  have h2 := Fmp4.total_le h
  omega

theorem flat_bytes {g : Seg} {t : Track} (hg : g.tracks = [t]) {D : List Bytes} (hD : D.map List.length = t.frames.map (·.size)) :
    D.flatten.length = bytesOf g.order := by
  rw [bytes_one hg, List.length_flatten, hD]

theorem file_layout {g : Seg} {t : Track} (hg : g.tracks = [t]) (h : g.Fits) {z : UInt8 × Nat × Bytes} {flags n : Nat} {aux : Bytes} {D : List Bytes} :
    ∃ A, file g z flags n aux D = A ++ aux ++ (atom (8 + D.flatten.length) (name 'm' 'd' 'a' 't') ++ D.flatten) ∧
    A.length + aux.length = (enc (preL g 0 (extra z aux))).length + moofSize g 0 (extra z aux) (layout g).truns := by
  have hx : _ = extra z aux := exL_length z (moofSize g 0 (extra z aux) (layout g).truns - aux.length) flags n aux
  have hmoof := Fmp4.moofSize_eq (sdi := 0) (Fmp4.fits_bytes h) hx
  generalize hO : moofSize g 0 (extra z aux) (layout g).truns - aux.length = off at *
  obtain ⟨l, hl, _⟩ := traf_kinds (base := moofSize g 0 (extra z aux) (layout g).truns + 8) (i := 0) (t := t) (offs := offsOf 0 0 g.order)
    (ex := exL z off flags n aux)
  have hm : ∃ M, enc (moofL g 0 (extra z aux) (exL z off flags n aux)) = M ++ aux := by
    unfold moofL
    rw [hg]
    show ∃ M, enc [(name 'm' 'f' 'h' 'd', be32 0 ++ be32 g.index),
      (name 't' 'r' 'a' 'f', enc (trafBoxes (moofSize g 0 (extra z aux) (layout g).truns + 8) 0 (exL z off flags n aux) 0 t (offsOf 0 0 g.order)))] = M ++ aux
    rw [hl, Fmp4.enc_append, exL_bytes]
    rw [Fmp4.enc_cons, Fmp4.enc_cons]
    unfold sencAtom
    show ∃ M, _ ++ (_ ++ (_ ++ (_ ++ (_ ++ aux))) ++ []) = M ++ aux
    simp only [List.append_nil, ← List.append_assoc]
    exact ⟨_, rfl⟩
  obtain ⟨M, hM⟩ := hm
  refine ⟨enc (preL g 0 (extra z aux)) ++ atom (8 + (M ++ aux).length) (name 'm' 'o' 'o' 'f') ++ M, ?_, ?_⟩
  · unfold file fileL
    rw [hO, Fmp4.enc_append, Fmp4.enc_cons, Fmp4.enc_cons]
    show _ ++ (_ ++ enc (moofL g 0 (extra z aux) (exL z off flags n aux)) ++ (_ ++ _ ++ [])) = _
    simp only [hM, List.append_assoc, List.append_nil]
  · rw [hmoof, hM]
    simp only [List.length_append, Fmp4.atom_length (Fmp4.name_length _ _ _ _)]
    omega

theorem file_traf {g : Seg} {t : Track} (hg : g.tracks = [t]) (h : g.Fits) {z : UInt8 × Nat × Bytes} {flags n : Nat} {aux : Bytes} {D : List Bytes}
    (hD : D.map List.length = t.frames.map (·.size)) (hs : g.bound + extra z aux < 2 ^ 31) :
    firstTraf (file g z flags n aux D) = some ((enc (preL g 0 (extra z aux))).length,
    toBoxes 0 (trafBoxes (moofSize g 0 (extra z aux) (layout g).truns + 8) 0
      (exL z (moofSize g 0 (extra z aux) (layout g).truns - aux.length) flags n aux) 0 t (offsOf 0 0 g.order))) :=
  firstTraf_file hg (Fmp4.fits_bytes h) (exL_length _ _ _ _ _) (flat_bytes hg hD) (fun x hx => (exL_names _ _ _ _ _ x hx).1) (total_lt hg h hs)

/-- The samples of the file. -/
theorem file_samples {g : Seg} {t : Track} (hg : g.tracks = [t]) (h : g.Fits) {z : UInt8 × Nat × Bytes} {flags n : Nat} {aux : Bytes} {D : List Bytes}
    (hD : D.map List.length = t.frames.map (·.size)) (hs : g.bound + extra z aux < 2 ^ 31) :
    readSegment (file g z flags n aux D) = some [(1, withData t.kind.version t.earliest t.es D)] := by
  have ht := total_lt hg h hs
  have hof := Fmp4.ofStream_order (g := g) (i := 0) (t := t) (by rw [hg]; rfl)
  have hr := Fmp4.read_fileL (g := g) (sdi := 0) (xs := extra z aux) (d := D.flatten) (Fmp4.fits_bytes h)
    (exL_length z (moofSize g 0 (extra z aux) (layout g).truns - aux.length) flags n aux) (flat_bytes hg hD) (exL_names _ _ _ _ _) ht (by
      intro t ht
      have := Fmp4.earliest_lt (h.start t ht)
      refine ⟨by omega, ?_⟩
      intro f hf
      have h1 := Fmp4.size_lt h ht hf
      have h2 := h.frame t ht f hf
      omega)
  unfold file
  rw [hr]
  obtain ⟨A, h1, h2⟩ := file_layout (z := z) (aux := aux) (D := D) (n := n) (flags := flags) hg h
  unfold file at h1
  rw [hg]
  show some [(1, _)] = _
  rw [expect_withData, Fmp4.at_places hof, Fmp4.at_snd hof]
  congr 4
  have hp := places_one (fs := t.frames) (D := D) [] [] hD
  rw [← order_one hg] at hp
  refine Eq.trans ?_ hp
  apply List.map_congr_left
  intro x _
  unfold slice
  congr 1
  rw [h1, ← List.drop_drop]
  simp only [List.nil_append, List.append_nil]
  congr 1
  rw [← List.append_assoc]
  apply List.drop_left'
  simp only [List.length_append, Fmp4.atom_length (Fmp4.name_length _ _ _ _)]
  omega

theorem file_senc {g : Seg} {t : Track} (hg : g.tracks = [t]) (h : g.Fits) {z : UInt8 × Nat × Bytes} {flags n : Nat} {aux : Bytes} {D : List Bytes}
    (hD : D.map List.length = t.frames.map (·.size)) (hs : g.bound + extra z aux < 2 ^ 31)
    (hn : n < 2 ^ 32) (hf : flags < 2 ^ 16) : segmentInfos (file g z flags n aux D) = readInfos (flags.testBit 1) n aux := by
  obtain ⟨_, _, p, hp⟩ := the_ex (base := moofSize g 0 (extra z aux) (layout g).truns + 8) (i := 0) (t := t) (offs := offsOf 0 0 g.order)
    z (moofSize g 0 (extra z aux) (layout g).truns - aux.length) flags n aux
  unfold segmentInfos
  simp only [file_traf (flags := flags) (n := n) hg h hD hs, hp, Option.bind_eq_bind, Option.bind_some]
  unfold readSenc
  have h4 : (be32 flags).length = 4 := rfl
  have e1 : (be32 flags ++ be32 n ++ aux).take 1 = [UInt8.ofNat (flags / 2 ^ 24)] := rfl
  have e2 : slice (be32 flags ++ be32 n ++ aux) 1 3 = (be32 flags).drop 1 := rfl
  have e3 : slice (be32 flags ++ be32 n ++ aux) 4 4 = be32 n := rfl
  have e4 : (be32 flags ++ be32 n ++ aux).drop 8 = aux := rfl
  have n1 : num [UInt8.ofNat (flags / 2 ^ 24)] = 0 := by
    unfold num
    simp only [List.foldl_cons, List.foldl_nil, UInt8.toNat_ofNat']
    omega
  have n2 : num ((be32 flags).drop 1) = flags := by
    unfold num be32
    simp only [List.drop_succ_cons, List.drop_zero, List.foldl_cons, List.foldl_nil, UInt8.toNat_ofNat']
    omega
  have hl : ¬ ((be32 flags ++ be32 n ++ aux).length < 8 ∨ num ((be32 flags ++ be32 n ++ aux).take 1) ≠ 0) := by
    rw [e1, n1]
    simp only [List.length_append, Fmp4.be32_length]
    omega
  rw [if_neg hl, e2, e3, e4, n2, Fmp4.num_be32_lt hn]

/-- The box `saiz` gives the sizes. -/
theorem readSaiz_box (zs : List UInt8) (hl : zs.length < 2 ^ 32) :
    CencFileSpec.readSaiz (be32 0 ++ [(Cenc.saiz zs).1] ++ be32 (Cenc.saiz zs).2.1 ++ (Cenc.saiz zs).2.2) = some (zs.map (·.toNat)) := by
  have hz := Cenc.readSaiz_saiz zs
  unfold Cenc.readSaiz at hz
  have hn : (Cenc.saiz zs).2.1 = zs.length := rfl
  have hc : (Cenc.saiz zs).1 ≠ 0 → (Cenc.saiz zs).2.2 = [] := by
    intro h
    unfold Cenc.saiz at h ⊢
    exact if_neg h
  generalize Cenc.saiz zs = s at *
  obtain ⟨d, n, l⟩ := s
  simp only at hz hn hc ⊢
  subst hn
  have e1 : (be32 0 ++ [d] ++ be32 zs.length ++ l).take 4 = be32 0 := rfl
  have e2 : slice (be32 0 ++ [d] ++ be32 zs.length ++ l) 4 1 = [d] := rfl
  have e3 : slice (be32 0 ++ [d] ++ be32 zs.length ++ l) 5 4 = be32 zs.length := rfl
  have e4 : (be32 0 ++ [d] ++ be32 zs.length ++ l).drop 9 = l := rfl
  have e5 : (be32 0 ++ [d] ++ be32 zs.length ++ l).length = 9 + l.length := by
    simp only [List.length_append, Fmp4.be32_length, List.length_cons, List.length_nil]
  have n1 : num [d] = d.toNat := by unfold num; simp
  have n0 : num (be32 0) = 0 := by decide +kernel
  unfold CencFileSpec.readSaiz
  simp only [e1, e2, e3, e4, e5, n1, n0, Fmp4.num_be32_lt hl]
  rw [if_neg (by omega)]
  by_cases hd : d = 0
  · subst hd
    rw [if_pos rfl] at hz
    subst hz
    rw [if_neg (by simp), if_pos rfl]
  · have hd' : d.toNat ≠ 0 := by
      intro h; apply hd; apply UInt8.toNat_inj.mp; rw [h]; rfl
    rw [if_neg hd] at hz
    rw [if_pos hd', hc hd, if_pos (show 9 + ([] : List UInt8).length = 9 from rfl), ← hz]
    simp

/-- What is found by `saiz` and `saio`. -/
theorem file_aux {g : Seg} {t : Track} (hg : g.tracks = [t]) (h : g.Fits) {z : UInt8 × Nat × Bytes} {ns : List Nat} {flags n : Nat} {aux : Bytes} {D : List Bytes}
    (hD : D.map List.length = t.frames.map (·.size)) (hs : g.bound + extra z aux < 2 ^ 31)
    (hz : CencFileSpec.readSaiz (be32 0 ++ [z.1] ++ be32 z.2.1 ++ z.2.2) = some ns) : ∃ A B, file g z flags n aux D = A ++ aux ++ B ∧
    auxInfos (file g z flags n aux D) = infosAt (A ++ aux ++ B) A.length ns := by
  obtain ⟨A, h1, h2⟩ := file_layout (z := z) (aux := aux) (D := D) (n := n) (flags := flags) hg h
  refine ⟨A, _, h1, ?_⟩
  rw [← h1]
  obtain ⟨⟨p1, hp1⟩, ⟨p2, hp2⟩, _⟩ := the_ex (base := moofSize g 0 (extra z aux) (layout g).truns + 8) (i := 0) (t := t)
    (offs := offsOf 0 0 g.order) z (moofSize g 0 (extra z aux) (layout g).truns - aux.length) flags n aux
  have ht := total_lt hg h hs
  have hmoof := Fmp4.moofSize_eq (sdi := 0) (Fmp4.fits_bytes h)
    (exL_length z (moofSize g 0 (extra z aux) (layout g).truns - aux.length) flags n aux)
  have htot : totalSize g 0 (extra z aux) = (enc (preL g 0 (extra z aux))).length +
      moofSize g 0 (extra z aux) (layout g).truns + (bytesOf g.order + 8) := by
    rw [Fmp4.preL_length]
    obtain ⟨_, _, h3, _⟩ := Fmp4.layout_facts (Fmp4.fits_bytes h)
    rw [← h3]; rfl
  have hle : aux.length ≤ moofSize g 0 (extra z aux) (layout g).truns := by
    unfold moofSize extra
    rw [hg]
    simp only [List.length_cons, List.length_nil]
    omega
  generalize hM : moofSize g 0 (extra z aux) (layout g).truns = m at *
  have ho : readSaio (be32 0 ++ be32 1 ++ be32 (m - aux.length)) = some (m - aux.length) := by
    have n0 : num (be32 0) = 0 := by decide +kernel
    have n1 : num (be32 1) = 1 := by decide +kernel
    have e1 : (be32 0 ++ be32 1 ++ be32 (m - aux.length)).take 4 = be32 0 := rfl
    have e2 : slice (be32 0 ++ be32 1 ++ be32 (m - aux.length)) 4 4 = be32 1 := rfl
    have e3 : slice (be32 0 ++ be32 1 ++ be32 (m - aux.length)) 8 4 = be32 (m - aux.length) := rfl
    have e4 : (be32 0 ++ be32 1 ++ be32 (m - aux.length)).length = 12 := rfl
    unfold readSaio
    rw [e1, e2, e3, e4, n0, n1, if_pos ⟨rfl, rfl, rfl⟩, Fmp4.num_be32_lt (by omega)]
  have hf := file_traf (flags := flags) (n := n) hg h hD hs
  rw [hM] at hf
  unfold auxInfos
  simp only [hf, hp1, hp2, hz, ho, Option.bind_eq_bind, Option.bind_some]
  have hA : (enc (preL g 0 (extra z aux))).length + (m - aux.length) = A.length := by omega
  rw [hA]

/-! ## The unencrypted response -/

theorem plain_samples (mem : Nat → UInt8) {g : Seg} {t : Track} (hg : g.tracks = [t]) (h : g.Fits) :
    Fmp4.response mem g = .ok (g.file mem) ∧
    readSegment (g.file mem) = some [(1, withData t.kind.version t.earliest t.es (cut mem t.addr (t.frames.map (·.size))))] := by
  refine ⟨Fmp4.response_file mem h, ?_⟩
  have hof := Fmp4.ofStream_order (g := g) (i := 0) (t := t) (by rw [hg]; rfl)
  rw [Fmp4.read_file mem h]
  have hd : g.data mem = (cut mem t.addr (t.frames.map (·.size))).flatten := by
    unfold Fmp4.Seg.data
    rw [order_one hg, hg]
    exact dataOf_one mem t.addr t.frames
  have hp := places_one (fs := t.frames) (D := cut mem t.addr (t.frames.map (·.size))) [] [] (cut_lengths _ _ _)
  rw [← order_one hg] at hp
  rw [hg]
  show some [(1, _)] = _
  rw [expect_withData, Fmp4.at_places hof, Fmp4.at_snd hof]
  congr 4
  refine Eq.trans ?_ hp
  apply List.map_congr_left
  intro x _
  rw [Fmp4.slice_data mem h, hd]
  simp only [List.nil_append, List.append_nil]

theorem es_length (t : Track) : t.es.length = t.frames.length := by
  have := congrArg List.length (Fmp4.es_size t)
  simpa using this

/-- Decrypting the file gives the samples of the unencrypted response. -/
theorem file_decrypts (mem : Nat → UInt8) {E : Bytes → Bytes} {g : Seg} {t : Track} (hg : g.tracks = [t]) (h : g.Fits) {z : UInt8 × Nat × Bytes}
    {flags n : Nat} {aux : Bytes} {D : List Bytes} (hD : D.map List.length = t.frames.map (·.size)) (hs : g.bound + extra z aux < 2 ^ 31)
    {is : List Info} (hi : segmentInfos (file g z flags n aux D) = some is)
    (hd : decs E is D = some (cut mem t.addr (t.frames.map (·.size)))) :
    ∃ p ss, decryptSegment E (file g z flags n aux D) = some ss ∧ Fmp4.response mem g = .ok p ∧ readSegment p = some [(1, ss)] := by
  obtain ⟨h1, h2⟩ := plain_samples mem hg h
  refine ⟨_, _, ?_, h1, h2⟩
  unfold decryptSegment
  simp only [file_samples (n := n) (flags := flags) hg h hD hs, hi, Option.bind_eq_bind, Option.bind_some]
  apply decryptAll_withData _ hd
  rw [es_length]
  have := congrArg List.length hD
  simpa using this.symm

/-! ## Video -/

/-- The units that are slices. -/
def slices (hevc : Bool) : Bytes → Bool := if hevc then hevcSlice else avcSlice

theorem sliced_eq (P : Par) {u : Bytes} (hu : 0 < u.length) : sliced P u = slices P.hevc u := by
  cases u with
  | nil => simp at hu
  | cons b u =>
    unfold sliced slices Cenc.isSlice hevcSlice avcSlice
    cases P.hevc <;> rfl

theorem subs_eq (P : Par) {us : List Bytes} (hu : Units P.n us) : us.map (subOf P) = ranges (slices P.hevc) P.n us := by
  unfold ranges
  apply List.map_congr_left
  intro u h
  unfold subOf
  rw [sliced_eq P (hu u h).1]

/-- The information of a segment of video: vectors from a number on, and the ranges of the slices. -/
theorem vItems_infos (P : Par) (v : Nat) {fs : List (List Bytes)} (hu : ∀ us ∈ fs, Units P.n us) :
    (vItems P v fs).map (·.2) = List.zipWith (fun iv us => ⟨iv, some (ranges (slices P.hevc) P.n us)⟩) (vectors v fs.length) fs := by
  induction fs generalizing v with
  | nil => rfl
  | cons us fs ih =>
    rw [vItems, List.map_cons, ih (v + 1) fun a h => hu a (List.mem_cons_of_mem _ h), subs_eq P (hu us List.mem_cons_self), List.length_cons, vectors,
      List.zipWith_cons_cons, vector_eq]

theorem aItems_infos (v n : Nat) : (aItems v n).map (·.2) = (vectors v n).map fun iv => ⟨iv, none⟩ := by
  induction n generalizing v with
  | zero => rfl
  | succ n ih => rw [aItems, List.map_cons, ih, vectors, List.map_cons, vector_eq]

/-- The number of the first vector: the one of the track and 60 for each second of its time. -/
def firstNumber (iv : Bytes) (t : Track) : Nat := Fmp4.u64 (num iv + (t.start * 60).tdiv t.timescale)

theorem firstIv_ok {iv : Bytes} {t : Track} (h0 : t.timescale ≠ 0) (h1 : -2 ^ 63 ≤ t.start * 60) (h2 : t.start * 60 < 2 ^ 63) :
    firstIv iv t = .ok (be64 (firstNumber iv t)) := by
  unfold firstIv
  rw [if_neg (by omega)]
  rfl

theorem entries_length (P : Par) (v : Nat) (fs : List (List Bytes)) : (entries P v fs).length = 10 * fs.length + 6 * (fs.map List.length).sum := by
  induction fs generalizing v with
  | nil => rfl
  | cons us fs ih =>
    rw [entries, List.length_append, ih, Cenc.entry_length, List.length_cons, List.map_cons, List.sum_cons]
    omega

theorem saiz_le (zs : List UInt8) : (Cenc.saiz zs).2.2.length ≤ zs.length := by
  unfold Cenc.saiz
  show (if _ then zs else []).length ≤ _
  split
  · exact Nat.le_refl _
  · exact Nat.zero_le _

/-- What is assumed of a segment of video: the track has units (`fs`) in its frames, which fit the fields of the boxes, and the last frame is
not empty. -/
structure VideoFits (P : Par) (mem : Nat → UInt8) (g : Seg) (t : Track) (fs : List (List Bytes)) : Prop where
  track : g.tracks = [t]
  fits : g.Fits
  scale : t.timescale ≠ 0
  low : -2 ^ 63 ≤ t.start * 60
  high : t.start * 60 < 2 ^ 63
  units : (cut mem t.addr (t.frames.map (·.size))).map (units P.n) = fs.map some
  last : ∀ us, fs.getLast? = some us → us ≠ []
  clear : ∀ us ∈ fs, ∀ u ∈ us, slices P.hevc u = false → P.n + u.length < 2 ^ 16
  count : ∀ us ∈ fs, us.length < 2 ^ 16
  size : g.bound + 53 + 11 * fs.length + 6 * (fs.map List.length).sum < 2 ^ 31

/-- The sizes of the information on samples, in one byte each. -/
def auxSizes (fs : List (List Bytes)) : List UInt8 := fs.map fun us => UInt8.ofNat (10 + us.length % 2 ^ 16 * 6)

theorem video_size {P : Par} {mem : Nat → UInt8} {g : Seg} {t : Track} {fs : List (List Bytes)} (h : VideoFits P mem g t fs) (v : Nat) :
    g.bound + extra (Cenc.saiz (auxSizes fs)) (entries P v fs) < 2 ^ 31 := by
  have h1 := saiz_le (auxSizes fs)
  have h2 := entries_length P v fs
  have h3 := h.size
  have h4 : (auxSizes fs).length = fs.length := by unfold auxSizes; rw [List.length_map]
  unfold extra
  omega

theorem video_lens {P : Par} {mem : Nat → UInt8} {g : Seg} {t : Track} {fs : List (List Bytes)} (h : VideoFits P mem g t fs) :
    fs.map (fun us => (plain P.n us).length) = t.frames.map (·.size) ∧ fs.length = t.frames.length := by
  obtain ⟨h1, _⟩ := frames_units h.units
  have h2 := cut_lengths mem t.addr (t.frames.map (·.size))
  rw [h1, List.map_map] at h2
  refine ⟨h2, ?_⟩
  have := congrArg List.length h2
  simpa using this

/-- The response for video is the file with the encrypted frames. -/
theorem video_response {P : Par} (hP : P.Ok) (iv : Bytes) {mem : Nat → UInt8} {g : Seg} {t : Track} {fs : List (List Bytes)} (h : VideoFits P mem g t fs) :
    videoResponse P iv mem g = .ok (file g (Cenc.saiz (auxSizes fs)) 2 fs.length (entries P (firstNumber iv t) fs) (vOuts P (firstNumber iv t) fs)) := by
  obtain ⟨hc, hu⟩ := frames_units h.units
  obtain ⟨hl, hn⟩ := video_lens h
  have hD : (vOuts P (firstNumber iv t) fs).map List.length = t.frames.map (·.size) := by rw [vOuts_lens, hl]
  have hd : (vOuts P (firstNumber iv t) fs).flatten.length = (t.frames.map (·.size)).sum := by rw [List.length_flatten, hD]
  obtain ⟨b, h1, h2⟩ := header_file h.track h.fits (Cenc.saiz (auxSizes fs)) 2 fs.length (entries P (firstNumber iv t) fs)
    (entries P (firstNumber iv t) fs).length hd
  unfold videoResponse
  simp only [h.track, firstIv_ok h.scale h.low h.high]
  by_cases h0 : t.frames = []
  · have hf : fs = [] := List.length_eq_zero_iff.mp (by rw [hn, h0]; rfl)
    subst hf
    show (if t.frames = [] then videoHeader g [] [] 0 else _) = _
    rw [if_pos h0]
    unfold file
    rw [← h2]
    show _ = Res.ok (b ++ [])
    rw [List.append_nil]
    exact h1
  · have hP4 : ¬ (P.n < 1 ∨ 4 < P.n) := by have := hP.n1; have := hP.n4; omega
    obtain ⟨cs, c1, c2⟩ := calls_ok mem h.track h.fits
    have hf : fs ≠ [] := by
      intro e
      apply h0
      apply List.length_eq_zero_iff.mp
      rw [← hn, e]; rfl
    obtain ⟨us, hus⟩ : ∃ us, fs.getLast? = some us := ⟨_, List.getLast?_eq_some_getLast hf⟩
    obtain ⟨s, w1, w2, w3, w4, w5⟩ := Cenc.video_exact hP (firstNumber iv t) (all := t.frames.map (·.size)) (fs := fs) ⟨hu, hl⟩
      ⟨us, hus, h.last us hus⟩ (bufs := cs) (by rw [c2, hc, List.flatMap_def.symm]; rfl)
    have w6 := w5 h.count
    show (if t.frames = [] then _ else if P.n < 1 ∨ 4 < P.n then _ else _) = _
    rw [if_neg h0, if_neg hP4, c1]
    show ((Cenc.V.init P (be64 (firstNumber iv t)) (t.frames.map (·.size))).writeAll P cs >>= fun v => _) = _
    rw [w1]
    show (if s.done then (videoHeader g s.aux s.sizes t.frames.length >>= fun h => Res.ok (h ++ s.wb.sent)) else Res.ok s.wb.sent) = _
    rw [if_pos w2, w3, w4, w6, ← hn]
    have h1' : videoHeader g (entries P (firstNumber iv t) fs) (auxSizes fs) fs.length = .ok b := h1
    have e : fs.map (fun us => UInt8.ofNat (10 + us.length % 2 ^ 16 * 6)) = auxSizes fs := rfl
    rw [e, h1']
    show Res.ok (b ++ outs P (firstNumber iv t) fs) = _
    rw [← vOuts_flatten, h2]
    rfl

theorem fits_fit {P : Par} {mem : Nat → UInt8} {g : Seg} {t : Track} {fs : List (List Bytes)} (h : VideoFits P mem g t fs) : ∀ us ∈ fs, Fit P us := by
  intro us hus u hu hs
  obtain ⟨_, hx⟩ := frames_units h.units
  rw [sliced_eq P (hx us hus u hu).1] at hs
  exact h.clear us hus u hu hs

theorem video_infos {P : Par} (hP : P.Ok) (v : Nat) {mem : Nat → UInt8} {g : Seg} {t : Track} {fs : List (List Bytes)} (h : VideoFits P mem g t fs) :
    segmentInfos (file g (Cenc.saiz (auxSizes fs)) 2 fs.length (entries P v fs) (vOuts P v fs)) = some ((vItems P v fs).map (·.2)) := by
  obtain ⟨_, hu⟩ := frames_units h.units
  have hD : (vOuts P v fs).map List.length = t.frames.map (·.size) := by rw [vOuts_lens, (video_lens h).1]
  have hsz := h.size
  rw [file_senc h.track h.fits hD (video_size h v) (by omega) (by omega)]
  have hr := readInfos_items (vItems_read hP (v := v) hu (fits_fit h) h.count)
  rw [vItems_length, vItems_bytes] at hr
  exact hr

/-- C103 for video, in part: whoever decrypts the response by the box `senc` gets the samples of the response without encryption, with their
times and flags. The vectors go up from the one of the time of the segment, and what is encrypted is all of a slice but its first byte. Missing:
frames with clear units of 64 KB, and segments whose last frame is empty. -/
theorem video_segment_partial {P : Par} (hP : P.Ok) (iv : Bytes) {mem : Nat → UInt8} {g : Seg} {t : Track} {fs : List (List Bytes)}
    (h : VideoFits P mem g t fs) :
    ∃ f p ss, videoResponse P iv mem g = .ok f ∧ Fmp4.response mem g = .ok p ∧ readSegment p = some [(1, ss)] ∧
      decryptSegment P.E.enc f = some ss ∧
      segmentInfos f = some (List.zipWith (fun iv us => ⟨iv, some (ranges (slices P.hevc) P.n us)⟩) (vectors (firstNumber iv t) fs.length) fs) := by
  obtain ⟨hc, hu⟩ := frames_units h.units
  have hD : (vOuts P (firstNumber iv t) fs).map List.length = t.frames.map (·.size) := by rw [vOuts_lens, (video_lens h).1]
  have hi := video_infos hP (firstNumber iv t) h
  obtain ⟨p, ss, d1, d2, d3⟩ := file_decrypts mem (E := P.E.enc) h.track h.fits hD (video_size h _) hi (by rw [vOuts_decs _ hu, hc])
  refine ⟨_, p, ss, video_response hP iv h, d2, d3, d1, ?_⟩
  rw [hi, vItems_infos P _ hu]

/-- C104 for video, in part: what `saiz` and `saio` point to is what `senc` has. Missing: frames of more than 40 units. -/
theorem video_aux_partial {P : Par} (hP : P.Ok) (iv : Bytes) {mem : Nat → UInt8} {g : Seg} {t : Track} {fs : List (List Bytes)}
    (h : VideoFits P mem g t fs) (h40 : ∀ us ∈ fs, us.length ≤ 40) :
    ∃ f is, videoResponse P iv mem g = .ok f ∧ segmentInfos f = some is ∧ is.length = t.frames.length ∧ auxInfos f = some is := by
  obtain ⟨hc, hu⟩ := frames_units h.units
  have hD : (vOuts P (firstNumber iv t) fs).map List.length = t.frames.map (·.size) := by rw [vOuts_lens, (video_lens h).1]
  have hi := video_infos hP (firstNumber iv t) h
  have hsz := h.size
  refine ⟨_, _, video_response hP iv h, hi, by rw [List.length_map, vItems_length, (video_lens h).2], ?_⟩
  obtain ⟨A, B, h1, h2⟩ := file_aux (n := fs.length) (flags := 2) h.track h.fits hD (video_size h _)
    (readSaiz_box (auxSizes fs) (by unfold auxSizes; rw [List.length_map]; omega))
  rw [h2]
  have hr := infosAt_items (vItems_read hP (v := firstNumber iv t) hu (fits_fit h) h.count) (by
    intro x hx
    have hm : x.1.length ∈ (vItems P (firstNumber iv t) fs).map (·.1.length) := List.mem_map.mpr ⟨x, hx, rfl⟩
    rw [vItems_lens] at hm
    obtain ⟨us, _, e⟩ := List.mem_map.mp hm
    rw [← e]
    simp only [decide_eq_true_eq]
    omega) A B
  rw [vItems_bytes, vItems_lens] at hr
  rw [← hr]
  congr 1
  unfold auxSizes
  rw [List.map_map]
  apply List.map_congr_left
  intro us hus
  have := h40 us hus
  show (UInt8.ofNat _).toNat = _
  rw [UInt8.toNat_ofNat']
  omega

/-! ## Audio -/

/-- What is assumed of a segment of audio: it fits the fields of the boxes, and the last frame is not empty. -/
structure AudioFits (g : Seg) (t : Track) : Prop where
  track : g.tracks = [t]
  fits : g.Fits
  scale : t.timescale ≠ 0
  low : -2 ^ 63 ≤ t.start * 60
  high : t.start * 60 < 2 ^ 63
  last : ∀ f, t.frames.getLast? = some f → f.size ≠ 0
  size : g.bound + 53 + 8 * t.frames.length < 2 ^ 31

theorem audioAux_length (v n : Nat) : (Cenc.audioAux (be64 v) n).length = 8 * n := by
  rw [← aItems_bytes, List.length_flatMap]
  show ((aItems v n).map (·.1.length)).sum = _
  rw [aItems_lens, List.sum_replicate_nat]
  omega

theorem cut_unique {ds : List Bytes} {mem : Nat → UInt8} {p : Nat} {ns : List Nat} (h1 : ns = ds.map List.length)
    (h2 : (cut mem p ns).flatten = ds.flatten) : cut mem p ns = ds := by
  induction ds generalizing p ns with
  | nil => subst h1; rfl
  | cons d ds ih =>
    subst h1
    rw [List.map_cons, cut, List.flatten_cons, List.flatten_cons] at h2
    obtain ⟨e1, e2⟩ := List.append_inj h2 (by simp)
    rw [List.map_cons, cut, ih rfl e2, e1]

/-- The box `saiz` of audio: all sizes are 8. -/
theorem saiz_audio {n : Nat} (h : n < 2 ^ 32) : CencFileSpec.readSaiz (be32 0 ++ [8] ++ be32 n ++ []) = some (List.replicate n 8) := by
  have e1 : (be32 0 ++ [8] ++ be32 n ++ []).take 4 = be32 0 := rfl
  have e2 : slice (be32 0 ++ [8] ++ be32 n ++ []) 4 1 = [8] := rfl
  have e3 : slice (be32 0 ++ [8] ++ be32 n ++ []) 5 4 = be32 n := rfl
  have e5 : (be32 0 ++ [8] ++ be32 n ++ []).length = 9 := rfl
  have n8 : num [8] = 8 := by decide +kernel
  have n0 : num (be32 0) = 0 := by decide +kernel
  unfold CencFileSpec.readSaiz
  simp only [e1, e2, e3, e5, n8, n0, Fmp4.num_be32_lt h]
  rfl

/-- The response for audio is the file with the encrypted frames. -/
theorem audio_response (E : Cipher) {cap : Nat} (hcap : 16 ≤ cap) (iv : Bytes) (mem : Nat → UInt8) {g : Seg} {t : Track} (h : AudioFits g t) :
    audioResponse E cap iv mem g = .ok (file g (8, t.frames.length, []) 0 t.frames.length (Cenc.audioAux (be64 (firstNumber iv t)) t.frames.length)
      (aOuts E (firstNumber iv t) (cut mem t.addr (t.frames.map (·.size))))) := by
  have hl := cut_lengths mem t.addr (t.frames.map (·.size))
  have hD : (aOuts E (firstNumber iv t) (cut mem t.addr (t.frames.map (·.size)))).map List.length = t.frames.map (·.size) := by rw [aOuts_lens, hl]
  have hd : (aOuts E (firstNumber iv t) (cut mem t.addr (t.frames.map (·.size)))).flatten.length = (t.frames.map (·.size)).sum := by
    rw [List.length_flatten, hD]
  obtain ⟨b, h1, h2⟩ := header_file h.track h.fits (8, t.frames.length, []) 0 t.frames.length (Cenc.audioAux (be64 (firstNumber iv t)) t.frames.length)
    (Cenc.audioAux (be64 (firstNumber iv t)) t.frames.length).length hd
  obtain ⟨cs, c1, c2⟩ := calls_ok mem h.track h.fits
  have hh : audioHeader g (be64 (firstNumber iv t)) t.frames.length = .ok b := by
    rw [← h1]
    unfold audioHeader
    rw [audioAux_length]
    rfl
  have hw : ∃ s, (Cenc.A.init (be64 (firstNumber iv t)) (t.frames.map (·.size))).writeAll E cap cs = .ok s ∧
      s.wb.sent = (aOuts E (firstNumber iv t) (cut mem t.addr (t.frames.map (·.size)))).flatten := by
    by_cases h0 : t.frames = []
    · rcases Cenc.audio_all_at (E := E) hcap cs (Cenc.AAt.init E (firstNumber iv t) (t.frames.map (·.size))) with ⟨s, dn, cur, k1, k2⟩ | ⟨_, k2⟩
      · refine ⟨s, k1, ?_⟩
        have hfr := k2.frames
        have hw := k2.wrote
        rw [h0, List.map_nil] at hfr
        have h1 := (List.append_eq_nil_iff.mp hfr.symm).1
        have h2 := (List.append_eq_nil_iff.mp h1).1
        have h3 := (List.append_eq_nil_iff.mp h1).2
        have h4 : dn = [] := by simpa using h2
        have h5 : s.left = 0 := by
          apply Classical.byContradiction
          intro hn
          rw [if_neg hn] at h3
          cases h3
        rw [h4, (k2.closed h5).1] at hw
        have h6 : s.wb.all = [] := hw
        unfold Cenc.WB.all at h6
        rw [h0]
        exact (List.append_eq_nil_iff.mp h6).1
      · rw [List.nil_append, c2, List.length_flatten, hl] at k2
        omega
    · obtain ⟨f, hf⟩ : ∃ f, t.frames.getLast? = some f := ⟨_, List.getLast?_eq_some_getLast h0⟩
      obtain ⟨s, w1, _, dn, w2, w3, w4⟩ := Cenc.audio_exact E hcap (firstNumber iv t) (all := t.frames.map (·.size))
        ⟨f.size, by rw [List.getLast?_map, hf]; rfl, h.last f hf⟩ (bufs := cs) (by rw [c2, List.length_flatten, hl])
      refine ⟨s, w1, ?_⟩
      rw [w2, aOuts_flatten, cut_unique w4 (by rw [← c2, w3])]
  obtain ⟨s, w1, w2⟩ := hw
  unfold audioResponse
  simp only [h.track, firstIv_ok h.scale h.low h.high]
  show (audioHeader g (be64 (firstNumber iv t)) t.frames.length >>= fun h => _) = _
  rw [hh, c1]
  show ((Cenc.A.init (be64 (firstNumber iv t)) (t.frames.map (·.size))).writeAll E cap cs >>= fun s => Res.ok (b ++ s.wb.sent)) = _
  rw [w1]
  show Res.ok (b ++ s.wb.sent) = _
  rw [w2, h2]
  rfl

theorem audio_infos (E : Cipher) (v : Nat) (mem : Nat → UInt8) {g : Seg} {t : Track} (h : AudioFits g t) :
    segmentInfos (file g (8, t.frames.length, []) 0 t.frames.length (Cenc.audioAux (be64 v) t.frames.length)
      (aOuts E v (cut mem t.addr (t.frames.map (·.size))))) = some ((aItems v t.frames.length).map (·.2)) := by
  have hD : (aOuts E v (cut mem t.addr (t.frames.map (·.size)))).map List.length = t.frames.map (·.size) := by rw [aOuts_lens, cut_lengths]
  have hsz := h.size
  have hx := audioAux_length v t.frames.length
  rw [file_senc h.track h.fits hD (by unfold extra; rw [hx, List.length_nil]; omega) (by omega) (by omega)]
  have hr := readInfos_items (aItems_read (v := v) (n := t.frames.length))
  rw [aItems_length, aItems_bytes] at hr
  exact hr

/-- C103 for audio, in part: whoever decrypts the response by the box `senc` gets the samples of the response without encryption, with their
times and flags. The vectors go up from the one of the time of the segment, and all of each sample is encrypted. Missing: segments whose last
frame is empty. -/
theorem audio_segment_partial (E : Cipher) {cap : Nat} (hcap : 16 ≤ cap) (iv : Bytes) (mem : Nat → UInt8) {g : Seg} {t : Track} (h : AudioFits g t) :
    ∃ f p ss, audioResponse E cap iv mem g = .ok f ∧ Fmp4.response mem g = .ok p ∧ readSegment p = some [(1, ss)] ∧
      decryptSegment E.enc f = some ss ∧ segmentInfos f = some ((vectors (firstNumber iv t) t.frames.length).map fun iv => ⟨iv, none⟩) := by
  have hD : (aOuts E (firstNumber iv t) (cut mem t.addr (t.frames.map (·.size)))).map List.length = t.frames.map (·.size) := by rw [aOuts_lens, cut_lengths]
  have hsz := h.size
  have hx := audioAux_length (firstNumber iv t) t.frames.length
  have hi := audio_infos E (firstNumber iv t) mem h
  have hl : (cut mem t.addr (t.frames.map (·.size))).length = t.frames.length := by
    have := congrArg List.length (cut_lengths mem t.addr (t.frames.map (·.size)))
    simpa using this
  have hdec := aOuts_decs E (firstNumber iv t) (cut mem t.addr (t.frames.map (·.size)))
  rw [hl] at hdec
  obtain ⟨p, ss, d1, d2, d3⟩ := file_decrypts mem (E := E.enc) h.track h.fits hD (by unfold extra; rw [hx, List.length_nil]; omega) hi hdec
  refine ⟨_, p, ss, audio_response E hcap iv mem h, d2, d3, d1, ?_⟩
  rw [hi, aItems_infos]

/-- C104 for audio: what `saiz` and `saio` point to is what `senc` has. -/
theorem audio_aux (E : Cipher) {cap : Nat} (hcap : 16 ≤ cap) (iv : Bytes) (mem : Nat → UInt8) {g : Seg} {t : Track} (h : AudioFits g t) :
    ∃ f is, audioResponse E cap iv mem g = .ok f ∧ segmentInfos f = some is ∧ is.length = t.frames.length ∧ auxInfos f = some is := by
  have hD : (aOuts E (firstNumber iv t) (cut mem t.addr (t.frames.map (·.size)))).map List.length = t.frames.map (·.size) := by rw [aOuts_lens, cut_lengths]
  have hsz := h.size
  have hx := audioAux_length (firstNumber iv t) t.frames.length
  refine ⟨_, _, audio_response E hcap iv mem h, audio_infos E _ mem h, by rw [List.length_map, aItems_length], ?_⟩
  obtain ⟨A, B, h1, h2⟩ := file_aux (n := t.frames.length) (flags := 0) (z := (8, t.frames.length, []))
    (aux := Cenc.audioAux (be64 (firstNumber iv t)) t.frames.length) h.track h.fits hD
    (by unfold extra; rw [hx, List.length_nil]; omega) (saiz_audio (n := t.frames.length) (by omega))
  rw [h2]
  have hr := infosAt_items (aItems_read (v := firstNumber iv t) (n := t.frames.length)) (by
    intro x hx
    have hm : x.1.length ∈ (aItems (firstNumber iv t) t.frames.length).map (·.1.length) := List.mem_map.mpr ⟨x, hx, rfl⟩
    rw [aItems_lens] at hm
    rw [(List.mem_replicate.mp hm).2]
    rfl) A B
  rw [aItems_bytes, aItems_lens] at hr
  exact hr

end Verif.CencFile
