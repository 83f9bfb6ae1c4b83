import Verif.CencLoop

/-!
# Common encryption: theorems

`video_exact`: what the writer of video puts out for a fragment, however its data is cut into buffers. `video_decrypts`: a player that reads
the auxiliary data gets the fragment back. `audio_exact`, `audio_decrypts`: the same for audio. `ivs_fresh`: no IV is used for two frames.
-/

namespace Verif.Cenc

/-! ## Video -/

/-- C53, first part: a fragment made of units, its last frame not empty, is never refused; whatever the pieces are in which the data arrives,
all output is sent, and it is the frames with the data of slices encrypted and everything else clear. -/
theorem video_exact {P : Par} (hP : P.Ok) (v : Nat) {all : List Nat} {fs : List (List (List UInt8))} (hw : Wf P.n all fs)
    (hlast : ∃ us, fs.getLast? = some us ∧ us ≠ []) {bufs : List (List UInt8)} (hd : bufs.flatten = plains P.n fs) :
    ∃ s, (V.init P (be64 v) all).writeAll P bufs = .ok s ∧ s.done = true ∧ s.wb.sent = outs P v fs ∧
      s.sizes = fs.map (fun us => UInt8.ofNat (10 + us.length % 2 ^ 16 * 6)) ∧
      ((∀ us ∈ fs, us.length < 2 ^ 16) → s.aux = entries P v fs) := by
  have hn4 := hP.n4
  have hn1 := hP.n1
  rcases writeAll_at hP bufs (VAt.init P v all) with ⟨s, dn, ph, k1, k2⟩ | ⟨_, k2⟩
  · refine ⟨s, k1, ?_⟩
    rw [List.nil_append, hd] at k2
    have hread := k2.base.read
    have hfr := k2.base.frames
    rw [hfr, List.append_assoc] at hw
    obtain ⟨r, r1, r2, r3⟩ := plains_prefix hn4 hn1 dn fs _ _ k2.base.units hw hread.symm
    obtain ⟨us, l1, l2⟩ := hlast
    have hr : r ≠ [] → ∃ r', r = r' ++ [us] := by
      intro h
      rw [r1, List.getLast?_append] at l1
      cases hx : r.getLast? with
      | none => rw [List.getLast?_eq_none_iff] at hx; exact absurd hx h
      | some a =>
        rw [hx] at l1
        simp at l1
        obtain ⟨r', e⟩ := List.getLast?_eq_some_iff.1 hx
        exact ⟨r', by rw [e, l1]⟩
    have hpos : ∀ {r'}, r = r' ++ [us] → 0 < (plain P.n us).length := by
      intro r' e
      have := plain_pos us (r2.1 us (by rw [e]; simp)) l2
      omega
    have hlen : r ≠ [] → (plain P.n us).length ≤ (ph.read P).length := by
      intro h
      obtain ⟨r', e⟩ := hr h
      rw [r3, e]; simp only [plains, List.flatMap_append, List.flatMap_cons, List.flatMap_nil, List.append_nil, List.length_append]
      omega
    have sizes : (r.map (fun us => (plain P.n us).length)) = ph.cur ++ s.frames := r2.2
    have hsum : (ph.read P).length = ((ph.cur ++ s.frames)).sum := by
      rw [r3, ← sizes]; simp only [plains, List.length_flatMap]
    have hidle : ph = .idle := by
      cases ph with
      | idle => rfl
      | zero =>
        have : r ≠ [] := by intro h; rw [h] at sizes; simp [Ph.cur] at sizes
        have h1 := hlen this
        obtain ⟨r', e⟩ := hr this
        have := hpos e
        rw [Ph.read, List.length_nil] at h1; omega
      | head f ws hb =>
        have g := k2.fits
        have h1 := g.2.1
        have h2 := g.2.2.2.2.1
        simp only [Ph.read, Ph.cur, List.length_append, List.singleton_append, List.sum_cons] at hsum
        omega
      | body f ws b u r' =>
        have g := k2.fits
        have h1 := g.2.2.1
        have h2 : 0 < r' := k2.pos
        simp only [Ph.read, Ph.cur, List.length_append, List.singleton_append, List.sum_cons, beN_length, List.length_cons] at hsum
        omega
    have hrn : r = [] := by
      apply Classical.byContradiction
      intro h
      have h1 := hlen h
      obtain ⟨r', e⟩ := hr h
      have := hpos e
      rw [hidle, Ph.read, List.length_nil] at h1; omega
    have hfs : fs = dn := by rw [r1, hrn, List.append_nil]
    have hframes : s.frames = [] := by rw [hrn, hidle] at sizes; simpa [Ph.cur] using sizes
    have hdn : dn ≠ [] := by intro h; rw [hfs, h] at l1; simp at l1
    have hdone : s.done = true := k2.base.fin.2 ⟨hidle, hdn, hframes⟩
    refine ⟨hdone, ?_, ?_, ?_⟩
    · rw [k2.base.sent hdone, k2.base.wrote, hidle, hfs]; simp [Ph.wrote]
    · rw [k2.base.sizes, hfs]
    · intro h; rw [hfs] at h ⊢; rw [k2.base.aux h, hidle]; simp [Ph.aux]
  · exfalso
    apply k2 fs hw []
    rw [List.nil_append, List.append_nil, hd]

/-- C53, which units are encrypted: in AVC the types 1 to 5 (ITU-T H.264 table 7-1, slices), in HEVC the types below 32 (ITU-T H.265 table
7-1, VCL units). The type is in the low 5 bits of the first byte, or in the 6 bits after the highest one. -/
theorem slice_types (P : Par) (b : UInt8) (u : List UInt8) :
    sliced P (b :: u) = if P.hevc then decide ((b >>> 1) &&& 0x3f < 32) else [1, 2, 3, 4, 5].contains (b &&& 0x1f) := by
  have h1 : ∀ i : Fin 256, (decide ((UInt8.ofNat i.val).toNat / 2 % 64 < 32) : Bool) = decide (((UInt8.ofNat i.val) >>> 1) &&& 0x3f < 32) := by decide +kernel
  have h2 : ∀ i : Fin 256, (decide (1 ≤ (UInt8.ofNat i.val).toNat % 32 ∧ (UInt8.ofNat i.val).toNat % 32 ≤ 5) : Bool) =
      ([1, 2, 3, 4, 5] : List UInt8).contains ((UInt8.ofNat i.val) &&& 0x1f) := by decide +kernel
  have hb : UInt8.ofNat b.toNat = b := by simp
  have g1 := h1 ⟨b.toNat, b.toNat_lt⟩
  have g2 := h2 ⟨b.toNat, b.toNat_lt⟩
  simp only [hb] at g1 g2
  show isSlice P b = _
  unfold isSlice
  by_cases h : P.hevc = true
  · rw [if_pos h, if_pos h]; exact g1
  · rw [if_neg h, if_neg h]; exact g2

/-- Whatever the data is, the writer ends with everything consistent or refuses it; nothing undefined happens, and data is refused only when
it is not the beginning of a fragment with the announced sizes. -/
theorem video_safe {P : Par} (hP : P.Ok) (v : Nat) (all : List Nat) (bufs : List (List UInt8)) :
    (∃ s, (V.init P (be64 v) all).writeAll P bufs = .ok s) ∨
    (V.init P (be64 v) all).writeAll P bufs = .err ∧ ∀ fs, Wf P.n all fs → ∀ t, bufs.flatten ++ t ≠ plains P.n fs := by
  rcases writeAll_at hP bufs (VAt.init P v all) with ⟨s, dn, ph, k1, k2⟩ | ⟨k1, k2⟩
  · exact .inl ⟨s, k1⟩
  · exact .inr ⟨k1, by simpa [Bad] using k2⟩

/-! ### A player -/

/-- The number with these big-endian bytes. -/
def num : List UInt8 → Nat
  | [] => 0
  | b :: bs => b.toNat * 256 ^ bs.length + num bs

/-- The list of subsamples: 2 bytes for the clear size and 4 bytes for the encrypted size of each. -/
def readSubs : Nat → List UInt8 → Option (List (Nat × Nat) × List UInt8)
  | 0, d => some ([], d)
  | k + 1, d =>
    if d.length < 6 then none
    else (readSubs k (d.drop 6)).map (fun x => ((num (d.take 2), num ((d.drop 2).take 4)) :: x.1, x.2))

/-- The auxiliary data of a sample: IV, number of subsamples, subsamples (ISO/IEC 23001-7). -/
def readEntry (d : List UInt8) : Option (List UInt8 × List (Nat × Nat) × List UInt8) :=
  if d.length < 10 then none
  else (readSubs (num ((d.drop 8).take 2)) (d.drop 10)).map (fun x => (d.take 8, x.1, x.2))

/-- The sizes that the atom `saiz` gives (ISO/IEC 14496-12). -/
def readSaiz (x : UInt8 × Nat × List UInt8) : List UInt8 := if x.1 = 0 then x.2.2 else List.replicate x.2.1 x.1

/-- The subsamples of a sample decrypted, the key stream goes on from one to the next. They must cover the sample. -/
def decSub (ks : Nat → UInt8) : Nat → List (Nat × Nat) → List UInt8 → Option (List UInt8)
  | _, [], [] => some []
  | _, [], _ :: _ => none
  | p, (c, e) :: ss, d =>
    if d.length < c + e then none
    else (decSub ks (p + e) ss (d.drop (c + e))).map (fun r => d.take c ++ (xorAt ks p ((d.drop c).take e) ++ r))

/-- A fragment decrypted, from the sizes of its samples, its auxiliary data, and its data. -/
def decFrag (E : Cipher) : List Nat → List UInt8 → List UInt8 → Option (List UInt8)
  | [], [], [] => some []
  | [], _, _ => none
  | f :: fs, aux, d =>
    if d.length < f then none
    else (readEntry aux).bind (fun x => (decSub (stream E x.1) 0 x.2.1 (d.take f)).bind (fun a =>
      (decFrag E fs x.2.2 (d.drop f)).map (fun b => a ++ b)))

/-- The bytes of each sample's auxiliary data, according to the list of sizes. -/
def cut : List Nat → List UInt8 → List (List UInt8)
  | [], _ => []
  | n :: ns, d => d.take n :: cut ns (d.drop n)

theorem num_beN : ∀ (k x : Nat), num (beN k x) = x % 256 ^ k
  | 0, x => by simp [num, beN]; omega
  | k + 1, x => by
    rw [beN, num, num_beN k, beN_length, UInt8.toNat_ofNat', show 256 ^ (k + 1) = 256 ^ k * 256 from Nat.pow_succ _ _, Nat.mod_mul,
      Nat.mul_comm (256 ^ k), Nat.add_comm]

theorem num_beN' {k x : Nat} (h : x < 256 ^ k) : num (beN k x) = x := by rw [num_beN, Nat.mod_eq_of_lt h]

/-- What the subsample of a unit says. -/
def subOf (P : Par) (u : List UInt8) : Nat × Nat := if sliced P u then (P.n + 1, u.length - 1) else (P.n + u.length, 0)

/-- Units whose sizes fit the auxiliary data. -/
def Fit (P : Par) (us : List (List UInt8)) : Prop := ∀ u ∈ us, sliced P u = false → P.n + u.length < 2 ^ 16

theorem readSubs_at {P : Par} (hP : P.Ok) : ∀ (us : List (List UInt8)) (rest : List UInt8), Units P.n us → Fit P us →
    readSubs us.length (us.flatMap (unitSub P) ++ rest) = some (us.map (subOf P), rest)
  | [], rest, _, _ => rfl
  | u :: us, rest, hu, hf => by
    have hn4 := hP.n4
    have h4 : 256 ^ P.n ≤ 256 ^ 4 := Nat.pow_le_pow_right (by omega) hn4
    have hul := hu u (by simp)
    have e : (u :: us).flatMap (unitSub P) ++ rest = unitSub P u ++ (us.flatMap (unitSub P) ++ rest) := by simp
    have h6 : (unitSub P u).length = 6 := subBytes_length _ _ _
    rw [e, List.length_cons, readSubs, if_neg (by rw [List.length_append]; omega), List.drop_left' h6,
      readSubs_at hP us rest (fun a h => hu a (by simp [h])) (fun a h => hf a (by simp [h]))]
    have key : ∀ a b : Nat, unitSub P u = beN 2 a ++ beN 4 b → a < 256 ^ 2 → b < 256 ^ 4 →
        num ((unitSub P u ++ (us.flatMap (unitSub P) ++ rest)).take 2) = a ∧ num (((unitSub P u ++ (us.flatMap (unitSub P) ++ rest)).drop 2).take 4) = b := by
      intro a b h ha hb
      have l2 : (beN 2 a).length = 2 := beN_length _ _
      have l4 : (beN 4 b).length = 4 := beN_length _ _
      constructor
      · rw [h, List.append_assoc, List.take_left' l2, num_beN' ha]
      · rw [h, List.append_assoc, List.drop_left' l2, List.take_left' l4, num_beN' hb]
    cases hs : sliced P u with
    | true =>
      obtain ⟨a1, a2⟩ := key (P.n + 1) (u.length - 1) (by simp [unitSub, subBytes, hs]) (by omega) (by omega)
      rw [a1, a2]
      simp [subOf, hs]
    | false =>
      have := hf u (by simp) hs
      obtain ⟨a1, a2⟩ := key (P.n + u.length) 0 (by simp [unitSub, subBytes, hs]) (by omega) (by omega)
      rw [a1, a2]
      simp [subOf, hs]

theorem readEntry_at {P : Par} (hP : P.Ok) {us : List (List UInt8)} (rest : List UInt8) (v : Nat) (hu : Units P.n us) (hf : Fit P us) (hl : us.length < 2 ^ 16) :
    readEntry (entry P (be64 v) us ++ rest) = some (be64 v, us.map (subOf P), rest) := by
  have h8 : (be64 v).length = 8 := be64_length v
  have h2 : (beN 2 us.length).length = 2 := beN_length _ _
  have e : entry P (be64 v) us ++ rest = be64 v ++ (beN 2 us.length ++ (us.flatMap (unitSub P) ++ rest)) := by simp [entry]
  rw [readEntry, e, if_neg (by simp only [List.length_append]; omega)]
  have d10 : (be64 v ++ (beN 2 us.length ++ (us.flatMap (unitSub P) ++ rest))).drop 10 = us.flatMap (unitSub P) ++ rest := by
    rw [show 10 = 8 + 2 from rfl, ← List.drop_drop, List.drop_left' h8, List.drop_left' h2]
  rw [d10, List.drop_left' h8, List.take_left' h2, List.take_left' h8, num_beN' (by omega), readSubs_at hP us rest hu hf]
  rfl

theorem encData_length (P : Par) (ks : Nat → UInt8) (p : Nat) (u : List UInt8) : (encData P ks p u).length = u.length := by
  cases u with
  | nil => rfl
  | cons b u => simp only [encData]; split <;> simp [xorAt_length]

theorem encUnits_length (P : Par) (ks : Nat → UInt8) : ∀ (us : List (List UInt8)) (p : Nat), (encUnits P ks p us).length = (plain P.n us).length
  | [], _ => rfl
  | u :: us, p => by
    rw [encUnits, List.length_append, List.length_append, encUnits_length P ks us, encData_length, beN_length]
    simp [plain, unit_length]

theorem decSub_at {P : Par} (ks : Nat → UInt8) : ∀ (us : List (List UInt8)) (p : Nat), Units P.n us →
    decSub ks p (us.map (subOf P)) (encUnits P ks p us) = some (plain P.n us)
  | [], _, _ => rfl
  | u :: us, p, hu => by
    have ih := decSub_at ks us (p + encSize P u) (fun a h => hu a (by simp [h]))
    have hu0 := (hu u (by simp)).1
    have hb : (beN P.n u.length).length = P.n := beN_length _ _
    have hp : plain P.n (u :: us) = beN P.n u.length ++ (u ++ plain P.n us) := by simp [plain, unit]
    rw [List.map_cons, encUnits, hp]
    cases u with
    | nil => simp at hu0
    | cons b u =>
      cases hs : sliced P (b :: u) with
      | true =>
        have hs' : isSlice P b = true := hs
        have e1 : subOf P (b :: u) = (P.n + 1, u.length) := by simp [subOf, hs]
        have e2 : encSize P (b :: u) = u.length := by simp [encSize, hs]
        rw [e2] at ih
        rw [e1, decSub]
        simp only [encData, hs', if_true, e2]
        have hx : (xorAt ks p u).length = u.length := xorAt_length _ _ _
        have l1 : (beN P.n (b :: u).length ++ [b]).length = P.n + 1 := by rw [List.length_append, hb]; rfl
        have d2 : beN P.n (b :: u).length ++ b :: xorAt ks p u ++ encUnits P ks (p + u.length) us =
            (beN P.n (b :: u).length ++ [b]) ++ (xorAt ks p u ++ encUnits P ks (p + u.length) us) := by simp
        have l2 : ((beN P.n (b :: u).length ++ [b]) ++ xorAt ks p u).length = P.n + 1 + u.length := by rw [List.length_append, l1, hx]
        rw [d2, if_neg (by simp only [List.length_append] at l1 l2 ⊢; omega)]
        rw [List.take_left' l1, List.drop_left' l1, List.take_left' hx, ← List.append_assoc, List.drop_left' l2, ih, xorAt_self]
        simp
      | false =>
        have hs' : isSlice P b = false := hs
        have e1 : subOf P (b :: u) = (P.n + (u.length + 1), 0) := by simp [subOf, hs]
        have e2 : encSize P (b :: u) = 0 := by simp [encSize, hs]
        rw [e2] at ih
        rw [e1, decSub]
        simp only [encData, hs', e2, Nat.add_zero] at ih ⊢
        have l1 : (beN P.n (b :: u).length ++ b :: u).length = P.n + (u.length + 1) := by rw [List.length_append, hb]; rfl
        simp only [Bool.false_eq_true, if_false]
        rw [if_neg (by rw [List.length_append]; omega), List.drop_left' l1, List.take_left' l1, ih]
        simp [xorAt]

theorem decFrag_at {P : Par} (hP : P.Ok) : ∀ (fs : List (List (List UInt8))) (v : Nat) (all : List Nat), Wf P.n all fs → (∀ us ∈ fs, Fit P us) →
    (∀ us ∈ fs, us.length < 2 ^ 16) → decFrag P.E all (entries P v fs) (outs P v fs) = some (plains P.n fs)
  | [], v, all, hw, _, _ => by
    have := hw.2; simp at this; subst this; rfl
  | us :: fs, v, all, hw, hf, hl => by
    have hm := hw.2
    cases all with
    | nil => simp at hm
    | cons f all =>
      rw [List.map_cons] at hm
      injection hm with m1 m2
      have hu := hw.1 us (by simp)
      have hlen : (encUnits P (stream P.E (be64 v)) 0 us).length = f := by rw [encUnits_length, m1]
      rw [entries, outs, decFrag, if_neg (by rw [List.length_append]; omega), readEntry_at hP _ v hu (hf us (by simp)) (hl us (by simp)), Option.bind_some]
      dsimp only
      rw [List.take_left' hlen, decSub_at _ us 0 hu, Option.bind_some, List.drop_left' hlen,
        decFrag_at hP fs (v + 1) all ⟨fun a h => hw.1 a (by simp [h]), m2⟩ (fun a h => hf a (by simp [h])) (fun a h => hl a (by simp [h]))]
      simp [plains]

theorem cut_entries (P : Par) : ∀ (fs : List (List (List UInt8))) (v : Nat), (∀ us ∈ fs, us.length ≤ 40) →
    cut (fs.map (fun us => (UInt8.ofNat (10 + us.length % 2 ^ 16 * 6)).toNat)) (entries P v fs) =
      (List.range fs.length).map (fun i => entry P (be64 (v + i)) ((fs[i]?).getD [])) ∧
    (fs.map (fun us => (UInt8.ofNat (10 + us.length % 2 ^ 16 * 6)).toNat)).sum = (entries P v fs).length
  | [], _, _ => ⟨rfl, rfl⟩
  | us :: fs, v, h => by
    have h40 := h us (by simp)
    obtain ⟨i1, i2⟩ := cut_entries P fs (v + 1) (fun a ha => h a (by simp [ha]))
    have hsz : (UInt8.ofNat (10 + us.length % 2 ^ 16 * 6)).toNat = (entry P (be64 v) us).length := by
      rw [entry_length, UInt8.toNat_ofNat', Nat.mod_eq_of_lt (show us.length < 2 ^ 16 by omega)]; omega
    constructor
    · rw [List.map_cons, cut, entries, hsz, List.take_left' rfl, List.drop_left' rfl, i1, List.length_cons, List.range_succ_eq_map]
      simp only [List.map_cons, List.map_map, Nat.add_zero]
      congr 1
      apply List.map_congr_left
      intro i _
      simp only [Function.comp_apply, List.getElem?_cons_succ]
      rw [show v + 1 + i = v + (i + 1) by omega]
    · rw [List.map_cons, List.sum_cons, entries, List.length_append, i2, hsz]

theorem readSaiz_saiz (zs : List UInt8) : readSaiz (saiz zs) = zs := by
  unfold readSaiz saiz
  by_cases h : defaultSize zs = 0
  · rw [if_pos h, if_pos h]
  · rw [if_neg h]
    cases zs with
    | nil => simp [defaultSize] at h
    | cons z zs =>
      by_cases hz : zs.all (· == z) = true
      · have hd : defaultSize (z :: zs) = z := by rw [defaultSize, if_pos hz]
        rw [hd]
        symm
        rw [List.eq_replicate_iff]
        refine ⟨rfl, ?_⟩
        intro b hb
        rcases List.mem_cons.1 hb with e | e
        · exact e
        · simpa using List.all_eq_true.1 hz b e
      · rw [defaultSize, if_neg hz] at h; exact absurd rfl h

/-- C53: a player that has the key gets every frame back from the output and the auxiliary data, however the data was cut into buffers when
it was encrypted. Units that are not slices have less than 64 KB with their size, and frames less than 65536 units. When no frame has more
than 40 units, the list of sizes is the sizes of the entries of the frames.

Missing for the whole property: larger units that are not slices (`large_unit_fails`), the list of sizes for frames with more units
(`many_units_fail`), and fragments with an empty last frame (`empty_last_fails`). -/
theorem video_decrypts_partial {P : Par} (hP : P.Ok) (v : Nat) {all : List Nat} {fs : List (List (List UInt8))} (hw : Wf P.n all fs)
    (hlast : ∃ us, fs.getLast? = some us ∧ us ≠ []) (hf : ∀ us ∈ fs, Fit P us) (hl : ∀ us ∈ fs, us.length < 2 ^ 16)
    {bufs : List (List UInt8)} (hd : bufs.flatten = plains P.n fs) :
    ∃ s, (V.init P (be64 v) all).writeAll P bufs = .ok s ∧ s.done = true ∧ s.wb.sent.length = bufs.flatten.length ∧
      decFrag P.E all s.aux s.wb.sent = some bufs.flatten ∧
      ((∀ us ∈ fs, us.length ≤ 40) → cut ((readSaiz (saiz s.sizes)).map UInt8.toNat) s.aux =
          (List.range fs.length).map (fun i => entry P (be64 (v + i)) ((fs[i]?).getD [])) ∧
        ((readSaiz (saiz s.sizes)).map UInt8.toNat).sum = s.aux.length) := by
  obtain ⟨s, h1, h2, h3, h4, h5⟩ := video_exact hP v hw hlast hd
  refine ⟨s, h1, h2, ?_, ?_, ?_⟩
  · rw [h3, hd]
    clear hw hlast hf hl hd h1 h2 h3 h4 h5
    induction fs generalizing v with
    | nil => rfl
    | cons us fs ih => rw [outs, List.length_append, encUnits_length, ih (v + 1)]; simp [plains]
  · rw [h3, h5 hl, hd]; exact decFrag_at hP fs v all hw hf hl
  · intro h40
    have := cut_entries P fs v h40
    rw [readSaiz_saiz, h4, h5 hl, List.map_map]
    exact this

/-! ## Audio -/

/-- The frames of a fragment encrypted, each from the beginning of the key stream of its IV. -/
def outsA (E : Cipher) : Nat → List (List UInt8) → List UInt8
  | _, [] => []
  | v, d :: fs => xorAt (stream E (be64 v)) 0 d ++ outsA E (v + 1) fs

theorem outsA_snoc (E : Cipher) (d : List UInt8) : ∀ (fs : List (List UInt8)) (v : Nat),
    outsA E v (fs ++ [d]) = outsA E v fs ++ xorAt (stream E (be64 (v + fs.length))) 0 d
  | [], v => by simp [outsA]
  | w :: fs, v => by
    rw [List.cons_append, outsA, outsA, outsA_snoc E d fs, List.append_assoc, List.length_cons, show v + 1 + fs.length = v + (fs.length + 1) by omega]

theorem outsA_length (E : Cipher) : ∀ (fs : List (List UInt8)) (v : Nat), (outsA E v fs).length = fs.flatten.length
  | [], _ => rfl
  | d :: fs, v => by rw [outsA, List.length_append, xorAt_length, outsA_length E fs, List.flatten_cons, List.length_append]

/-- The writer after the bytes `c`: the frames `dn` are complete, `cur` is the beginning of the next one. -/
structure AAt (E : Cipher) (v : Nat) (all : List Nat) (s : A) (dn : List (List UInt8)) (cur c : List UInt8) : Prop where
  frames : all = dn.map List.length ++ (if s.left = 0 then [] else [cur.length + s.left]) ++ s.frames
  closed : s.left = 0 → cur = [] ∧ s.iv = be64 (v + dn.length)
  opened : 0 < s.left → s.ctr.At E (be64 (v + dn.length)) cur.length ∧ s.iv = be64 (v + dn.length + 1)
  read : c = dn.flatten ++ cur
  wrote : s.wb.all = outsA E v dn ++ xorAt (stream E (be64 (v + dn.length))) 0 cur
  wb : s.wb.Ok
  fin : s.done = true ↔ s.left = 0 ∧ dn ≠ [] ∧ s.frames = []
  sent : s.done = true → s.wb.sent = s.wb.all

theorem AAt.init (E : Cipher) (v : Nat) (all : List Nat) : AAt E v all (A.init (be64 v) all) [] [] [] where
  frames := rfl
  closed := fun _ => ⟨rfl, rfl⟩
  opened := fun h => by simp [A.init] at h
  read := rfl
  wrote := rfl
  wb := by simp [A.init, WB.init, WB.Ok]
  fin := by simp [A.init]
  sent := by simp [A.init]

/-- A frame has begun, with `left` bytes to come, and these may be none. -/
structure ABeg (E : Cipher) (v : Nat) (all : List Nat) (s : A) (dn : List (List UInt8)) (cur c : List UInt8) : Prop where
  frames : all = dn.map List.length ++ [cur.length + s.left] ++ s.frames
  ctr : s.ctr.At E (be64 (v + dn.length)) cur.length
  iv : s.iv = be64 (v + dn.length + 1)
  read : c = dn.flatten ++ cur
  wrote : s.wb.all = outsA E v dn ++ xorAt (stream E (be64 (v + dn.length))) 0 cur
  wb : s.wb.Ok
  notDone : s.done = false

theorem begin_at {E : Cipher} {v : Nat} {all : List Nat} {s : A} {dn : List (List UInt8)} {cur c : List UInt8} (h : AAt E v all s dn cur c) :
    (∃ s', s.begin = .ok s' ∧ ABeg E v all s' dn cur c ∧ (s.left = 0 → s'.frames.length + 1 = s.frames.length) ∧ (0 < s.left → s'.left = s.left ∧ s'.frames = s.frames)) ∨
    s.begin = .err ∧ s.left = 0 ∧ s.frames = [] := by
  unfold A.begin
  by_cases h0 : s.left = 0
  · rw [if_pos h0]
    obtain ⟨h1, h2⟩ := h.closed h0
    unfold A.startFrame
    cases hf : s.frames with
    | nil => exact .inr ⟨rfl, h0, rfl⟩
    | cons f fs =>
      left
      have hd : s.done = false := by
        cases hd : s.done with
        | false => rfl
        | true => have := (h.fin.1 hd).2.2; rw [hf] at this; simp at this
      refine ⟨_, rfl, ⟨?_, ?_, ?_, h.read, h.wrote, h.wb, hd⟩, fun _ => rfl, fun h => by omega⟩
      · rw [h.frames, if_pos h0, hf, h1]; simp
      · show (Ctr.setIv s.iv).At _ _ _
        rw [h2, h1]; exact Ctr.setIv_at _ (be64_length _)
      · show inc64 s.iv = _
        rw [h2, inc64_be64]
  · rw [if_neg h0]
    left
    obtain ⟨h1, h2⟩ := h.opened (by omega)
    have hd : s.done = false := by
      cases hd : s.done with
      | false => rfl
      | true => exact absurd (h.fin.1 hd).1 h0
    refine ⟨s, rfl, ⟨?_, h1, h2, h.read, h.wrote, h.wb, hd⟩, fun h => absurd h h0, fun _ => ⟨rfl, rfl⟩⟩
    have := h.frames
    rw [if_neg h0] at this
    exact this

theorem audio_loop_at {E : Cipher} {bs : Nat} (hbs : 16 ≤ bs) {v : Nat} {all : List Nat} : ∀ (k : Nat) {s : A} {dn : List (List UInt8)} {cur c : List UInt8},
    AAt E v all s dn cur c → ∀ (buf : List UInt8), buf.length + s.frames.length < k →
    (∃ s' dn' cur', A.loop E bs k s buf = .ok s' ∧ AAt E v all s' dn' cur' (c ++ buf)) ∨ A.loop E bs k s buf = .err ∧ all.sum < (c ++ buf).length
  | k, s, dn, cur, c, h, [], _ => by
    left
    refine ⟨s, dn, cur, ?_, by simpa using h⟩
    unfold A.loop
    rfl
  | 0, _, _, _, _, _, _ :: _, hk => by omega
  | k + 1, s, dn, cur, c, h, x :: xs, hk => by
    rw [A.loop]
    case x_3 => simp
    rcases begin_at h with ⟨s1, e1, hb, e2, e3⟩ | ⟨e1, e2, e3⟩
    · rw [e1, Res.bind_ok]
      have hw : (x :: xs).take (min (x :: xs).length s1.left) = (x :: xs).take s1.left := by
        rw [List.take_eq_take_iff]; omega
      have hdr : (x :: xs).drop (min (x :: xs).length s1.left) = (x :: xs).drop s1.left := by
        rw [List.drop_eq_drop_iff]; omega
      have hml : min (x :: xs).length s1.left = ((x :: xs).take s1.left).length := by rw [List.length_take]; omega
      dsimp only
      rw [hw, hdr, hml]
      obtain ⟨c', wb', w1, w2, w3, w4⟩ := writeEnc_spec hbs hb.ctr hb.wb ((x :: xs).take s1.left)
      rw [w1, Res.bind_ok]
      dsimp only
      have hall : wb'.all = outsA E v dn ++ xorAt (stream E (be64 (v + dn.length))) 0 (cur ++ (x :: xs).take s1.left) := by
        rw [w3, hb.wrote, xorAt_append, Nat.zero_add, List.append_assoc]
      have hread : c ++ (x :: xs).take s1.left = dn.flatten ++ (cur ++ (x :: xs).take s1.left) := by rw [hb.read, List.append_assoc]
      have hcat : c ++ (x :: xs) = c ++ (x :: xs).take s1.left ++ (x :: xs).drop s1.left := by
        rw [List.append_assoc, List.take_append_drop]
      by_cases hp : s1.left - ((x :: xs).take s1.left).length > 0
      · rw [if_pos hp]
        left
        have hfull : (x :: xs).take s1.left = x :: xs := by
          apply List.take_of_length_le
          rw [List.length_take] at hp; omega
        rw [hfull] at hall hread w2 hp ⊢
        refine ⟨_, dn, cur ++ x :: xs, rfl, ?_, ?_, ?_, hread, hall, w4, ?_, ?_⟩
        · rw [hb.frames]
          dsimp only
          rw [if_neg (by omega), List.length_append]
          congr 3
          omega
        · intro h; dsimp only at h; omega
        · intro _
          rw [List.length_append]; exact ⟨w2, hb.iv⟩
        · show s1.done = true ↔ s1.left - (x :: xs).length = 0 ∧ _
          rw [hb.notDone]; simp; intro h; simp at hp; omega
        · show s1.done = true → _
          rw [hb.notDone]; simp
      · rw [if_neg hp]
        have hl : ((x :: xs).take s1.left).length = s1.left := by rw [List.length_take] at hp ⊢; omega
        have hmeas : ((x :: xs).drop s1.left).length + s1.frames.length < k := by
          rw [List.length_drop]
          by_cases h0 : s.left = 0
          · have := e2 h0; omega
          · have := e3 (by omega)
            rw [this.1, this.2]
            have : 0 < (x :: xs).length := by simp
            omega
        have next : ∀ s2 : A, s2.frames = s1.frames → s2.left = 0 → s2.iv = s1.iv → s2.wb.all = wb'.all → s2.wb.Ok → (s2.done = true ↔ s1.frames = []) →
            (s2.done = true → s2.wb.sent = s2.wb.all) → AAt E v all s2 (dn ++ [cur ++ (x :: xs).take s1.left]) [] (c ++ (x :: xs).take s1.left) := by
          intro s2 a1 a2 a3 a4 a5 a6 a7
          refine ⟨?_, ?_, ?_, ?_, ?_, a5, ?_, a7⟩
          · rw [hb.frames, a1, if_pos a2]
            simp only [List.map_append, List.map_cons, List.map_nil, List.append_nil, List.length_append, hl]
          · intro _
            refine ⟨rfl, ?_⟩
            rw [a3, hb.iv]; simp [Nat.add_assoc]
          · intro h; omega
          · rw [hread]; simp
          · rw [a4, hall, outsA_snoc]; simp [xorAt]
          · rw [a6, a1, a2]; simp
        by_cases hfr : s1.frames = []
        · rw [if_pos hfr]
          have key := audio_loop_at hbs k (s := { s1 with ctr := c', wb := wb'.flush bs false, left := s1.left - ((x :: xs).take s1.left).length, done := true })
            (next _ rfl (by show s1.left - _ = 0; omega) rfl (WB.flush_all _ _ _) (WB.flush_ok _ _ _) (by simp [hfr])
              (fun _ => by show (wb'.flush bs false).sent = (wb'.flush bs false).all; rw [WB.flush_sent, WB.flush_all]))
            ((x :: xs).drop s1.left) hmeas
          rw [← hcat] at key
          exact key
        · rw [if_neg hfr]
          have key := audio_loop_at hbs k (s := { s1 with ctr := c', wb := wb', left := s1.left - ((x :: xs).take s1.left).length })
            (next _ rfl (by show s1.left - _ = 0; omega) rfl rfl w4 (by show s1.done = true ↔ _; rw [hb.notDone]; simp [hfr])
              (fun h => by have : s1.done = true := h; rw [hb.notDone] at this; simp at this))
            ((x :: xs).drop s1.left) hmeas
          rw [← hcat] at key
          exact key
    · right
      rw [e1]
      refine ⟨rfl, ?_⟩
      rw [h.frames, if_pos e2, e3, h.read, (h.closed e2).1]
      simp only [List.append_nil, List.length_append, List.length_flatten, List.length_cons]
      omega

theorem audio_all_at {E : Cipher} {bs : Nat} (hbs : 16 ≤ bs) {v : Nat} {all : List Nat} : ∀ (bufs : List (List UInt8)) {s : A} {dn : List (List UInt8)} {cur c : List UInt8},
    AAt E v all s dn cur c →
    (∃ s' dn' cur', s.writeAll E bs bufs = .ok s' ∧ AAt E v all s' dn' cur' (c ++ bufs.flatten)) ∨
    s.writeAll E bs bufs = .err ∧ all.sum < (c ++ bufs.flatten).length
  | [], s, dn, cur, c, h => .inl ⟨s, dn, cur, rfl, by simpa using h⟩
  | b :: l, s, dn, cur, c, h => by
    rw [A.writeAll]
    rcases audio_loop_at hbs (b.length + s.frames.length + 1) h b (by omega) with ⟨s', dn', cur', k1, k2⟩ | ⟨k1, k2⟩
    · rw [A.write, k1, Res.bind_ok, List.flatten_cons, ← List.append_assoc]
      exact audio_all_at hbs l k2
    · right
      rw [A.write, k1]
      refine ⟨rfl, ?_⟩
      simp only [List.flatten_cons, List.length_append] at k2 ⊢
      omega

/-- A fragment of audio decrypted: 8 bytes of auxiliary data for each sample, its IV. -/
def decAudio (E : Cipher) : List Nat → List UInt8 → List UInt8 → Option (List UInt8)
  | [], [], [] => some []
  | [], _, _ => none
  | f :: fs, aux, d =>
    if d.length < f ∨ aux.length < 8 then none
    else (decAudio E fs (aux.drop 8) (d.drop f)).map (fun r => xorAt (stream E (aux.take 8)) 0 (d.take f) ++ r)

theorem decAudio_at (E : Cipher) : ∀ (fs : List (List UInt8)) (v : Nat),
    decAudio E (fs.map List.length) (audioAux (be64 v) fs.length) (outsA E v fs) = some fs.flatten
  | [], _ => rfl
  | d :: fs, v => by
    have h8 : (be64 v).length = 8 := be64_length v
    have hx : (xorAt (stream E (be64 v)) 0 d).length = d.length := xorAt_length _ _ _
    rw [List.map_cons, outsA, List.length_cons, audioAux, decAudio, if_neg (by simp only [List.length_append]; omega), List.drop_left' h8,
      List.take_left' h8, List.drop_left' hx, List.take_left' hx, inc64_be64, decAudio_at E fs (v + 1), xorAt_self]
    rfl

/-- What the writer of audio sends. -/
theorem audio_exact (E : Cipher) {bs : Nat} (hbs : 16 ≤ bs) (v : Nat) {all : List Nat} (hlast : ∃ f, all.getLast? = some f ∧ f ≠ 0)
    {bufs : List (List UInt8)} (hd : bufs.flatten.length = all.sum) :
    ∃ s, (A.init (be64 v) all).writeAll E bs bufs = .ok s ∧ s.done = true ∧
      ∃ dn, s.wb.sent = outsA E v dn ∧ bufs.flatten = dn.flatten ∧ all = dn.map List.length := by
  rcases audio_all_at hbs bufs (AAt.init E v all) with ⟨s, dn, cur, k1, k2⟩ | ⟨_, k2⟩
  · refine ⟨s, k1, ?_⟩
    rw [List.nil_append] at k2
    have hfr := k2.frames
    have hrd := congrArg List.length k2.read
    rw [hd, List.length_append, List.length_flatten] at hrd
    have hsum := congrArg List.sum hfr
    rw [List.sum_append, List.sum_append] at hsum
    obtain ⟨f, l1, l2⟩ := hlast
    have h0 : s.left = 0 := by
      apply Classical.byContradiction
      intro h
      rw [if_neg h] at hsum
      simp only [List.sum_cons, List.sum_nil] at hsum
      omega
    obtain ⟨hc, _⟩ := k2.closed h0
    rw [if_pos h0, List.append_nil] at hfr
    rw [if_pos h0, List.sum_nil] at hsum
    have hfn : s.frames = [] := by
      apply Classical.byContradiction
      intro h
      rw [hfr, List.getLast?_append] at l1
      cases hx : s.frames.getLast? with
      | none => rw [List.getLast?_eq_none_iff] at hx; exact h hx
      | some a =>
        rw [hx] at l1
        simp at l1
        obtain ⟨r', e⟩ := List.getLast?_eq_some_iff.1 hx
        rw [hc] at hrd
        have : s.frames.sum = r'.sum + f := by rw [e, l1]; simp
        simp only [List.length_nil] at hrd
        omega
    rw [hfn, List.append_nil] at hfr
    have hdn : dn ≠ [] := by intro h; rw [hfr, h] at l1; simp at l1
    have hdone := k2.fin.2 ⟨h0, hdn, hfn⟩
    have hs : s.wb.sent = outsA E v dn := by rw [k2.sent hdone, k2.wrote, hc]; simp [xorAt]
    have hflat : bufs.flatten = dn.flatten := by rw [k2.read, hc, List.append_nil]
    exact ⟨hdone, dn, hs, hflat, hfr⟩
  · rw [List.nil_append] at k2; omega

/-- C54: a player that has the key gets the data of a fragment of audio back, however it was cut into buffers when it was encrypted. The last
frame is not empty.

Missing for the whole property: fragments with an empty last frame (`audio_empty_last_fails`). -/
theorem audio_decrypts_partial (E : Cipher) {bs : Nat} (hbs : 16 ≤ bs) (v : Nat) {all : List Nat} (hlast : ∃ f, all.getLast? = some f ∧ f ≠ 0)
    {bufs : List (List UInt8)} (hd : bufs.flatten.length = all.sum) :
    ∃ s, (A.init (be64 v) all).writeAll E bs bufs = .ok s ∧ s.done = true ∧ s.wb.sent.length = bufs.flatten.length ∧
      decAudio E all (audioAux (be64 v) all.length) s.wb.sent = some bufs.flatten := by
  obtain ⟨s, k1, hdone, dn, hs, hflat, hfr⟩ := audio_exact E hbs v hlast hd
  refine ⟨s, k1, hdone, ?_, ?_⟩
  · rw [hs, hflat]
    exact outsA_length E dn v
  · rw [hs, hflat, hfr, List.length_map]; exact decAudio_at E dn v

/-! ## IVs -/

theorem be64_beN (x : Nat) : be64 x = beN 8 x := by simp [be64, beN]

theorem be64_mod {x y : Nat} (h : be64 x = be64 y) : x % 2 ^ 64 = y % 2 ^ 64 := by
  rw [be64_beN, be64_beN] at h
  have := congrArg num h
  rw [num_beN, num_beN] at this
  exact this

theorem mod_ne {x y N : Nat} (h : x < y) (hN : y - x < N) : x % N ≠ y % N := by
  intro e
  have := Nat.sub_mod_eq_zero_of_mod_eq e.symm
  rw [Nat.mod_eq_of_lt hN] at this
  omega

/-- C55: frames of a track never have the same block of the key stream: no counter block of frame `i` of a segment is a counter block of
frame `j` of the same or a later segment. A segment has not more than 60 frames for each second until the later segment starts. Each segment
is written as in `video_decrypts_partial` and `audio_decrypts_partial`, with the first IV that `firstIv` gives.

Missing for the whole property: segments with more frames (`fast_repeats`, `fast_audio_repeats`), and other tracks with the same key
(`tracks_repeat`). -/
theorem ivs_fresh_partial {iv iv1 iv2 : List UInt8} {s1 s2 scale n1 n2 : Nat} (h1 : firstIv iv s1 scale = .ok iv1) (h2 : firstIv iv s2 scale = .ok iv2)
    (hs : (s1 = s2 ∧ n1 = n2) ∨ s1 ≤ s2 ∧ n1 * scale ≤ 60 * (s2 - s1)) (hr : 60 * s2 / scale + n2 ≤ 2 ^ 64) :
    ∃ v1 v2, iv1 = be64 v1 ∧ iv2 = be64 v2 ∧ ∀ i j, i < n1 → j < n2 → (s1 = s2 → i ≠ j) → ∀ b1 b2, be64 (v1 + i) ++ be64 b1 ≠ be64 (v2 + j) ++ be64 b2 := by
  unfold firstIv at h1 h2
  by_cases h0 : scale = 0
  · rw [if_pos h0] at h1; cases h1
  rw [if_neg h0] at h1 h2
  injection h1 with h1
  injection h2 with h2
  refine ⟨_, _, h1.symm, h2.symm, ?_⟩
  intro i j hi hj hij b1 b2 he
  have hb := (List.append_inj he (by rw [be64_length, be64_length])).1
  have hm := be64_mod hb
  rw [Nat.add_mod, Nat.mod_mod, ← Nat.add_mod, Nat.add_mod (_ % _) j, Nat.mod_mod, ← Nat.add_mod, Nat.mul_comm s1, Nat.mul_comm s2] at hm
  rcases hs with ⟨e1, e2⟩ | ⟨e1, e2⟩
  · have := hij e1
    rw [e1] at hm
    generalize 60 * s2 / scale = q at hm hr
    rcases Nat.lt_or_gt_of_ne this with h | h
    · exact mod_ne (by omega) (by omega) hm
    · exact mod_ne (by omega) (by omega) hm.symm
  · by_cases hn : n1 = 0
    · omega
    have hle : 60 * s1 / scale + n1 ≤ 60 * s2 / scale := by
      rw [← Nat.add_mul_div_right _ _ (by omega : 0 < scale)]
      apply Nat.div_le_div_right
      omega
    generalize 60 * s2 / scale = q at hm hr hle
    generalize 60 * s1 / scale = q' at hm hle
    exact mod_ne (by omega) (by omega) hm

/-- Two tracks with the same key and IV: whoever knows one of them knows the other, the sum of the outputs is the sum of the data. With the
default of `pckg_enc_scope` all tracks of a channel have the same key and IV (ngx_http_pckg_enc.c:136-200, 781). -/
theorem tracks_repeat (E : Cipher) (v : Nat) (a b : List UInt8) (h : a.length = b.length) :
    List.zipWith (· ^^^ ·) (outsA E v [a]) (outsA E v [b]) = List.zipWith (· ^^^ ·) a b := by
  have key : ∀ (ks : Nat → UInt8) (a b : List UInt8) (p : Nat), a.length = b.length →
      List.zipWith (· ^^^ ·) (xorAt ks p a) (xorAt ks p b) = List.zipWith (· ^^^ ·) a b := by
    intro ks a
    induction a with
    | nil => intro b p h; simp [xorAt]
    | cons x a ih =>
      intro b p h
      cases b with
      | nil => simp at h
      | cons y b =>
        simp only [xorAt, List.zipWith_cons_cons]
        rw [ih b (p + 1) (by simpa using h)]
        congr 1
        rw [UInt8.xor_assoc, UInt8.xor_comm (ks p), UInt8.xor_assoc, UInt8.xor_self, UInt8.xor_zero]
  simp only [outsA, List.append_nil]
  exact key _ a b 0 h

end Verif.Cenc
