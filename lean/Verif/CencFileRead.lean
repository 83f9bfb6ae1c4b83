import Verif.CencFileBox

/-!
# Reading encrypted segments

Helpers for `Verif.CencFileProps`: the information on samples, and the samples with other data.
-/

namespace Verif.CencFile

open Fmp4 (Bytes Seg Track Frame be32 atom name enc toBoxes trafBoxes fileL preL moofL moofSize layout bytesOf offsOf places uintMax)
open Fmp4Spec (num slice Box allBoxes kind the Sample readSegment cut Entry)
open CencFileSpec
open Cenc (Cipher Par be64 beN subOf Units Fit sliced stream xorAt plain unit entry entries outs outsA encUnits)

/-! ## Numbers -/

theorem num_foldl (b : Bytes) (a : Nat) : b.foldl (fun n x => n * 256 + x.toNat) a = a * 256 ^ b.length + Cenc.num b := by
  induction b generalizing a with
  | nil => simp [Cenc.num]
  | cons x b ih =>
    rw [List.foldl_cons, ih, Cenc.num, List.length_cons, Nat.pow_succ, Nat.add_mul, Nat.mul_assoc, Nat.mul_comm 256, Nat.add_assoc]

theorem num_eq (b : Bytes) : num b = Cenc.num b := by
  unfold num
  rw [num_foldl, Nat.zero_mul, Nat.zero_add]

theorem num_lt (b : Bytes) : Cenc.num b < 256 ^ b.length := by
  induction b with
  | nil => simp [Cenc.num]
  | cons x b ih =>
    rw [Cenc.num, List.length_cons, Nat.pow_succ]
    have hx : x.toNat ≤ 255 := by have := x.toNat_lt; omega
    have : x.toNat * 256 ^ b.length ≤ 255 * 256 ^ b.length := Nat.mul_le_mul_right _ hx
    omega

theorem beN_mod (k x a : Nat) : beN k (a * 256 ^ k + x) = beN k x := by
  induction k generalizing a with
  | zero => rfl
  | succ k ih =>
    rw [beN, beN]
    have e : a * 256 ^ (k + 1) + x = a * 256 * 256 ^ k + x := by rw [Nat.pow_succ, Nat.mul_assoc, Nat.mul_comm 256]
    rw [e, ih]
    congr 1
    rw [Nat.add_comm, Nat.add_mul_div_right _ _ (Nat.pow_pos (by omega))]
    apply UInt8.toNat_inj.mp
    rw [UInt8.toNat_ofNat', UInt8.toNat_ofNat']
    omega

theorem beN_num (b : Bytes) : beN b.length (Cenc.num b) = b := by
  induction b with
  | nil => rfl
  | cons x b ih =>
    rw [Cenc.num, List.length_cons, beN, beN_mod, ih]
    congr 1
    rw [Nat.add_comm, Nat.add_mul_div_right _ _ (Nat.pow_pos (by omega)), Nat.div_eq_of_lt (num_lt b), Nat.zero_add]
    simp

theorem vector_eq (v : Nat) : ((List.range 8).map fun i => UInt8.ofNat (v / 256 ^ (7 - i))) = be64 v := by
  rw [show List.range 8 = [0, 1, 2, 3, 4, 5, 6, 7] from rfl]
  simp [be64]

/-! ## The key stream -/

theorem mask_eq (E : Cipher) (iv : Bytes) (j : Nat) (b : Bytes) : mask E.enc iv j b = xorAt (stream E iv) j b := by
  induction b generalizing j with
  | nil => rfl
  | cons x b ih =>
    rw [mask, xorAt, ih]
    congr 2
    unfold pad stream counter
    rw [vector_eq]

theorem decryptSubs_eq (E : Cipher) (iv : Bytes) (j : Nat) (l : List (Nat × Nat)) (b : Bytes) :
    decryptSubs E.enc iv j l b = Cenc.decSub (stream E iv) j l b := by
  induction l generalizing j b with
  | nil => cases b <;> rfl
  | cons x l ih =>
    obtain ⟨c, e⟩ := x
    rw [decryptSubs, Cenc.decSub, ih]
    split
    · rfl
    · congr 1
      funext r
      rw [mask_eq, List.append_assoc]
      rfl

/-! ## Information on samples -/

theorem readSubs_eq (n : Nat) (b : Bytes) : CencFileSpec.readSubs n b = Cenc.readSubs n b := by
  induction n generalizing b with
  | zero => rfl
  | succ n ih =>
    rw [CencFileSpec.readSubs, Cenc.readSubs, ih]
    simp only [num_eq]
    rfl

/-- Information of video. -/
def vItems (P : Par) : Nat → List (List Bytes) → List (Bytes × Info)
  | _, [] => []
  | v, us :: fs => (entry P (be64 v) us, ⟨be64 v, some (us.map (subOf P))⟩) :: vItems P (v + 1) fs

theorem vItems_bytes (P : Par) (v : Nat) (fs : List (List Bytes)) : (vItems P v fs).flatMap (·.1) = entries P v fs := by
  induction fs generalizing v with
  | nil => rfl
  | cons us fs ih => rw [vItems, List.flatMap_cons, ih]; rfl

theorem vItems_length (P : Par) (v : Nat) (fs : List (List Bytes)) : (vItems P v fs).length = fs.length := by
  induction fs generalizing v with
  | nil => rfl
  | cons us fs ih => rw [vItems, List.length_cons, ih, List.length_cons]

theorem vItems_lens (P : Par) (v : Nat) (fs : List (List Bytes)) : (vItems P v fs).map (·.1.length) = fs.map fun us => 10 + 6 * us.length := by
  induction fs generalizing v with
  | nil => rfl
  | cons us fs ih => rw [vItems, List.map_cons, ih, Cenc.entry_length]; rfl

theorem vItems_read {P : Par} (hP : P.Ok) {v : Nat} {fs : List (List Bytes)} (hu : ∀ us ∈ fs, Units P.n us) (hf : ∀ us ∈ fs, Fit P us)
    (hl : ∀ us ∈ fs, us.length < 2 ^ 16) : ∀ x ∈ vItems P v fs, ∀ rest, readInfo true (x.1 ++ rest) = some (x.2, rest) := by
  induction fs generalizing v with
  | nil => intro x hx; cases hx
  | cons us fs ih =>
    intro x hx rest
    rw [vItems] at hx
    rcases List.mem_cons.mp hx with rfl | hx
    · have h := Cenc.readEntry_at hP rest v (hu us List.mem_cons_self) (hf us List.mem_cons_self) (hl us List.mem_cons_self)
      have hlen : 10 ≤ (entry P (be64 v) us ++ rest).length := by rw [List.length_append, Cenc.entry_length]; omega
      unfold Cenc.readEntry at h
      rw [if_neg (by omega)] at h
      unfold readInfo
      rw [if_neg (by show ¬ (entry P (be64 v) us ++ rest).length < 8; omega), if_pos rfl,
        if_neg (by show ¬ (entry P (be64 v) us ++ rest).length < 10; omega), readSubs_eq, num_eq]
      show Option.map _ (Cenc.readSubs (Cenc.num (((entry P (be64 v) us ++ rest).drop 8).take 2)) ((entry P (be64 v) us ++ rest).drop 10)) = _
      cases hr : Cenc.readSubs (Cenc.num (((entry P (be64 v) us ++ rest).drop 8).take 2)) ((entry P (be64 v) us ++ rest).drop 10) with
      | none => rw [hr] at h; cases h
      | some r =>
        rw [hr] at h
        simp only [Option.map_some, Option.some.injEq, Prod.mk.injEq] at h
        simp only [Option.map_some, h.1, h.2.1, h.2.2]
    · exact ih (fun a h => hu a (List.mem_cons_of_mem _ h)) (fun a h => hf a (List.mem_cons_of_mem _ h)) (fun a h => hl a (List.mem_cons_of_mem _ h)) x hx rest

/-- Information of audio. -/
def aItems : Nat → Nat → List (Bytes × Info)
  | _, 0 => []
  | v, n + 1 => (be64 v, ⟨be64 v, none⟩) :: aItems (v + 1) n

theorem aItems_bytes (v n : Nat) : (aItems v n).flatMap (·.1) = Cenc.audioAux (be64 v) n := by
  induction n generalizing v with
  | zero => rfl
  | succ n ih => rw [aItems, List.flatMap_cons, ih, Cenc.audioAux, Cenc.inc64_be64]

theorem aItems_length (v n : Nat) : (aItems v n).length = n := by
  induction n generalizing v with
  | zero => rfl
  | succ n ih => rw [aItems, List.length_cons, ih]

theorem aItems_lens (v n : Nat) : (aItems v n).map (·.1.length) = List.replicate n 8 := by
  induction n generalizing v with
  | zero => rfl
  | succ n ih => rw [aItems, List.map_cons, ih]; rfl

theorem aItems_read {v n : Nat} : ∀ x ∈ aItems v n, ∀ rest, readInfo false (x.1 ++ rest) = some (x.2, rest) := by
  induction n generalizing v with
  | zero => intro x hx; cases hx
  | succ n ih =>
    intro x hx rest
    rw [aItems] at hx
    rcases List.mem_cons.mp hx with rfl | hx
    · unfold readInfo
      have h8 : (be64 v).length = 8 := rfl
      have h : ¬ (be64 v ++ rest).length < 8 := by rw [List.length_append, h8]; omega
      show (if (be64 v ++ rest).length < 8 then none else _) = _
      rw [if_neg h]
      show some (Info.mk ((be64 v ++ rest).take 8) none, (be64 v ++ rest).drop 8) = _
      rw [List.take_left' h8, List.drop_left' h8]
    · exact ih x hx rest

theorem readInfos_items {s : Bool} {es : List (Bytes × Info)} (h : ∀ x ∈ es, ∀ rest, readInfo s (x.1 ++ rest) = some (x.2, rest)) :
    readInfos s es.length (es.flatMap (·.1)) = some (es.map (·.2)) := by
  induction es with
  | nil => rfl
  | cons x es ih =>
    rw [List.length_cons, List.flatMap_cons, readInfos, h x List.mem_cons_self, Option.bind_some, ih fun y hy => h y (List.mem_cons_of_mem _ hy)]
    rfl

theorem infosAt_items {s : Bool} {es : List (Bytes × Info)} (h : ∀ x ∈ es, ∀ rest, readInfo s (x.1 ++ rest) = some (x.2, rest))
    (hs : ∀ x ∈ es, decide (8 < x.1.length) = s) (A B : Bytes) :
    infosAt (A ++ es.flatMap (·.1) ++ B) A.length (es.map (·.1.length)) = some (es.map (·.2)) := by
  induction es generalizing A with
  | nil => rfl
  | cons x es ih =>
    rw [List.map_cons, infosAt]
    have hlen : ¬ (A ++ (x :: es).flatMap (·.1) ++ B).length < A.length + x.1.length := by
      rw [List.flatMap_cons]; simp only [List.length_append]; omega
    have hsl : slice (A ++ (x :: es).flatMap (·.1) ++ B) A.length x.1.length = x.1 := by
      unfold slice
      rw [List.flatMap_cons, List.append_assoc, List.drop_left, List.append_assoc, List.take_left]
    have e : A ++ (x :: es).flatMap (·.1) ++ B = (A ++ x.1) ++ es.flatMap (·.1) ++ B := by
      rw [List.flatMap_cons]; simp only [List.append_assoc]
    have hr := h x List.mem_cons_self []
    rw [List.append_nil] at hr
    have hi := ih (fun y hy => h y (List.mem_cons_of_mem _ hy)) (fun y hy => hs y (List.mem_cons_of_mem _ hy)) (A ++ x.1)
    rw [← e, List.length_append] at hi
    rw [if_neg hlen, hsl, hs x List.mem_cons_self, hr]
    show (if ([] : Bytes) ≠ [] then none else _) = _
    rw [if_neg (by simp), hi]
    rfl

/-! ## Samples with other data -/

/-- Samples from entries and their data. -/
def withData (v : Nat) : Int → List Entry → List Bytes → List Sample
  | t, e :: es, d :: ds => ⟨t, t + (if v = 0 then (e.cts : Int) else Fmp4Spec.signed e.cts), e.dur, !e.flags.testBit 16, d⟩ :: withData v (t + e.dur) es ds
  | _, _, _ => []

theorem expect_withData (file : Bytes) (p v : Nat) (t : Int) (fs : List (Nat × Entry)) :
    Fmp4.expect file p v t fs = withData v t (fs.map (·.2)) ((fs.map fun x => (x.1, x.2.size)).map fun x => slice file (p + x.1) x.2) := by
  induction fs generalizing t with
  | nil => rfl
  | cons x fs ih =>
    obtain ⟨o, e⟩ := x
    rw [Fmp4.expect, ih]
    rfl

/-- The data of samples is decrypted. -/
def decs (E : Bytes → Bytes) : List Info → List Bytes → Option (List Bytes)
  | [], [] => some []
  | i :: is, d :: ds => (decrypt E i d).bind fun x => (decs E is ds).map (x :: ·)
  | _, _ => none

theorem decryptAll_withData {E : Bytes → Bytes} {v : Nat} {t : Int} {es : List Entry} {ds ds' : List Bytes} {is : List Info}
    (hl : es.length = ds.length) (h : decs E is ds = some ds') : decryptAll E (withData v t es ds) is = some (withData v t es ds') := by
  induction ds generalizing t es is ds' with
  | nil =>
    cases is with
    | nil => cases es with
      | nil => rfl
      | cons _ _ => simp at hl
    | cons _ _ => cases h
  | cons d ds ih =>
    cases is with
    | nil => cases h
    | cons i is => cases es with
      | nil => simp at hl
      | cons e es =>
        rw [decs] at h
        cases hd : decrypt E i d with
        | none => rw [hd] at h; cases h
        | some x =>
          rw [hd, Option.bind_some] at h
          cases hr : decs E is ds with
          | none => rw [hr] at h; cases h
          | some r =>
            rw [hr] at h
            injection h with h
            subst h
            have := ih (t := t + e.dur) (es := es) (by simpa using hl) hr
            rw [withData, decryptAll]
            simp only [hd, this, Option.bind_eq_bind, Option.bind_some]
            rfl

/-- The frames of video, encrypted. -/
def vOuts (P : Par) : Nat → List (List Bytes) → List Bytes
  | _, [] => []
  | v, us :: fs => encUnits P (stream P.E (be64 v)) 0 us :: vOuts P (v + 1) fs

theorem vOuts_flatten (P : Par) (v : Nat) (fs : List (List Bytes)) : (vOuts P v fs).flatten = outs P v fs := by
  induction fs generalizing v with
  | nil => rfl
  | cons us fs ih => rw [vOuts, List.flatten_cons, ih]; rfl

theorem vOuts_lens (P : Par) (v : Nat) (fs : List (List Bytes)) : (vOuts P v fs).map List.length = fs.map fun us => (plain P.n us).length := by
  induction fs generalizing v with
  | nil => rfl
  | cons us fs ih => rw [vOuts, List.map_cons, ih, Cenc.encUnits_length]; rfl

theorem vOuts_decs {P : Par} (v : Nat) {fs : List (List Bytes)} (hu : ∀ us ∈ fs, Units P.n us) :
    decs P.E.enc ((vItems P v fs).map (·.2)) (vOuts P v fs) = some (fs.map (plain P.n)) := by
  induction fs generalizing v with
  | nil => rfl
  | cons us fs ih =>
    rw [vItems, List.map_cons, vOuts, decs, ih (v + 1) fun a h => hu a (List.mem_cons_of_mem _ h)]
    unfold decrypt
    show Option.bind (decryptSubs P.E.enc (be64 v) 0 (us.map (subOf P)) _) _ = _
    rw [decryptSubs_eq, Cenc.decSub_at _ us 0 (hu us List.mem_cons_self)]
    rfl

/-- The frames of audio, encrypted. -/
def aOuts (E : Cipher) : Nat → List Bytes → List Bytes
  | _, [] => []
  | v, d :: fs => xorAt (stream E (be64 v)) 0 d :: aOuts E (v + 1) fs

theorem aOuts_flatten (E : Cipher) (v : Nat) (fs : List Bytes) : (aOuts E v fs).flatten = outsA E v fs := by
  induction fs generalizing v with
  | nil => rfl
  | cons us fs ih => rw [aOuts, List.flatten_cons, ih]; rfl

theorem aOuts_lens (E : Cipher) (v : Nat) (fs : List Bytes) : (aOuts E v fs).map List.length = fs.map List.length := by
  induction fs generalizing v with
  | nil => rfl
  | cons us fs ih => rw [aOuts, List.map_cons, ih, Cenc.xorAt_length]; rfl

theorem aOuts_decs (E : Cipher) (v : Nat) (fs : List Bytes) : decs E.enc ((aItems v fs.length).map (·.2)) (aOuts E v fs) = some fs := by
  induction fs generalizing v with
  | nil => rfl
  | cons us fs ih =>
    rw [List.length_cons, aItems, List.map_cons, aOuts, decs, ih (v + 1)]
    unfold decrypt
    show Option.bind (some (mask E.enc (be64 v) 0 _)) _ = _
    rw [mask_eq, Cenc.xorAt_self]
    rfl

/-! ## Units -/

theorem nalUnits_eq {nls n : Nat} {b : Bytes} {us : List Bytes} (h : nalUnits nls n b = some us) : b = plain nls us ∧ Units nls us := by
  induction n generalizing b us with
  | zero =>
    cases b with
    | nil => injection h with h; subst h; exact ⟨rfl, fun u hu => by cases hu⟩
    | cons _ _ => cases h
  | succ n ih =>
    cases b with
    | nil => injection h with h; subst h; exact ⟨rfl, fun u hu => by cases hu⟩
    | cons y b =>
      generalize hB : y :: b = B at h
      have h' : (if B.length < nls + num (B.take nls) ∨ num (B.take nls) = 0 then none
          else (nalUnits nls n (B.drop (nls + num (B.take nls)))).map (slice B nls (num (B.take nls)) :: ·)) = some us := by
        rw [← h, ← hB, nalUnits]
        intro h; cases h
      split at h'
      · cases h'
      · rename_i hc
        cases hr : nalUnits nls n (B.drop (nls + num (B.take nls))) with
        | none => rw [hr] at h'; cases h'
        | some rs =>
          rw [hr] at h'
          injection h' with h'
          obtain ⟨h1, h2⟩ := ih hr
          have htl : (B.take nls).length = nls := by rw [List.length_take]; omega
          have hsl : (slice B nls (num (B.take nls))).length = num (B.take nls) := by
            unfold slice
            rw [List.length_take, List.length_drop]
            omega
          have hlt := num_lt (B.take nls)
          rw [htl, ← num_eq] at hlt
          constructor
          · rw [← h']
            have hb := beN_num (B.take nls)
            rw [htl, ← num_eq] at hb
            show B = (beN nls (slice B nls (num (B.take nls))).length ++ slice B nls (num (B.take nls))) ++ plain nls rs
            rw [hsl, hb, ← h1]
            unfold slice
            rw [List.append_assoc, ← List.drop_drop, List.take_append_drop, List.take_append_drop]
          · intro u hu
            rw [← h'] at hu
            rcases List.mem_cons.mp hu with rfl | hu
            · omega
            · exact h2 u hu

/-- Frames that are units. -/
theorem frames_units {nls : Nat} {ds : List Bytes} {fs : List (List Bytes)} (h : ds.map (units nls) = fs.map some) :
    ds = fs.map (plain nls) ∧ ∀ us ∈ fs, Units nls us := by
  induction ds generalizing fs with
  | nil =>
    cases fs with
    | nil => exact ⟨rfl, fun u hu => by cases hu⟩
    | cons _ _ => cases h
  | cons d ds ih =>
    cases fs with
    | nil => cases h
    | cons us fs =>
      simp only [List.map_cons, List.cons.injEq] at h
      obtain ⟨h1, h2⟩ := nalUnits_eq h.1
      obtain ⟨h3, h4⟩ := ih h.2
      constructor
      · rw [List.map_cons, ← h1, ← h3]
      · intro u hu
        rcases List.mem_cons.mp hu with rfl | hu
        · exact h2
        · exact h4 u hu

end Verif.CencFile
