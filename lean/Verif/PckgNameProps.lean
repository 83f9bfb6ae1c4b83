import Verif.PckgNameSpec
import Verif.SubTime

/-! # C105: names in playlists lead to what they name -/

namespace Verif.PName

open Verif.Sub (str digits)
open Verif.PNameSpec
open Verif.SubSpec (isDigit value)

/-! ## Escapes -/

theorem esc_dec : ∀ c : UInt8, c ≠ 0 → unhex (hexDigit (c / 16)) = some (c.toNat / 16) ∧ unhex (hexDigit (c % 16)) = some (c.toNat % 16) := by
  have k : ∀ n, n < 256 → UInt8.ofNat n ≠ 0 → unhex (hexDigit (UInt8.ofNat n / 16)) = some ((UInt8.ofNat n).toNat / 16) ∧
    unhex (hexDigit (UInt8.ofNat n % 16)) = some ((UInt8.ofNat n).toNat % 16) := by decide +kernel
  intro c h
  have := k c.toNat c.toNat_lt (by simpa using h)
  simpa using this

theorem keeps_ne {c : UInt8} (h : keeps c = true) : c ≠ 37 := by
  rintro rfl; revert h; decide

theorem pct_cons {c : UInt8} (h : c ≠ 37) : ∀ l : Bytes, pctDecode (c :: l) = (pctDecode l).map (c :: ·)
  | [] => by simp [pctDecode, h]
  | [a] => by rw [pctDecode, if_neg h]; intro _ _ _ e; cases e
  | a :: b :: l => by rw [pctDecode, if_neg h]

theorem pct_plain : ∀ (a r : Bytes), (∀ c ∈ a, c ≠ 37) → pctDecode (a ++ r) = (pctDecode r).map (a ++ ·)
  | [], r, _ => by simp
  | c :: a, r, h => by
    rw [List.cons_append, pct_cons (h c (by simp)), pct_plain a r (fun x hx => h x (by simp [hx]))]
    cases pctDecode r <;> rfl

theorem pct_escape : ∀ (id r : Bytes), 0 ∉ id → pctDecode (escape id ++ r) = (pctDecode r).map (id ++ ·)
  | [], r, _ => by simp [escape]
  | c :: id, r, h => by
    have hc : c ≠ 0 := fun e => h (by simp [e])
    have ih := pct_escape id r (fun e => h (by simp [e]))
    have he : escape (c :: id) ++ r = (if keeps c then [c] else [37, hexDigit (c / 16), hexDigit (c % 16)]) ++ (escape id ++ r) := by
      unfold escape; rw [List.flatMap_cons, List.append_assoc]
    rw [he]
    by_cases hk : keeps c = true
    · rw [if_pos hk, pct_plain [c] _ (by simpa using keeps_ne hk), ih]
      cases pctDecode r <;> rfl
    · rw [if_neg hk]
      show pctDecode (37 :: hexDigit (c / 16) :: hexDigit (c % 16) :: (escape id ++ r)) = _
      have h2 := esc_dec c hc
      have h3 : c.toNat / 16 * 16 + c.toNat % 16 = c.toNat := by omega
      rw [pctDecode, if_pos rfl]
      simp only [h2.1, h2.2, h3]
      rw [if_neg (by intro e; exact hc (UInt8.toNat_inj.1 e)), ih]
      cases pctDecode r <;> simp

/-! ## Numbers -/

theorem parse_fold : ∀ (ds r : Bytes) (v : Nat), ds.all isDigit = true → (∀ c ∈ r.head?, isDigit c = false) →
    parseU32 (v % 2 ^ 32) (ds ++ r) = ((ds.foldl (fun n c => n * 10 + (c.toNat - 48)) v) % 2 ^ 32, r)
  | [], [], v, _, _ => rfl
  | [], c :: r, v, _, h => by
    have : isDigit c = false := h c (by simp)
    rw [List.nil_append, parseU32, if_neg]
    · rfl
    · intro hc; simp [isDigit, hc] at this
  | c :: ds, r, v, h, hr => by
    simp only [List.all_cons, Bool.and_eq_true] at h
    rw [List.cons_append, parseU32, if_pos (by simpa [isDigit] using h.1)]
    have e : (v % 2 ^ 32 * 10 + (c.toNat - 48)) % 2 ^ 32 = (v * 10 + (c.toNat - 48)) % 2 ^ 32 := by omega
    rw [e, parse_fold ds r _ h.2 hr]
    rfl

theorem number_dec {i : Nat} (h : i < 2 ^ 32 - 1) (r : Bytes) (hr : ∀ c ∈ r.head?, isDigit c = false) :
    number (45 :: (dec (i + 1) ++ r)) = some (i, r) := by
  have e : (i + 1) % 2 ^ 32 = i + 1 := Nat.mod_eq_of_lt (by omega)
  have hp := parse_fold (digits 10 (i + 1)) r 0 (Sub.digits_all _ _) hr
  have hv : (digits 10 (i + 1)).foldl (fun n c => n * 10 + (c.toNat - 48)) 0 = i + 1 :=
    Sub.digits_value 10 (i + 1) (Nat.lt_of_lt_of_le (show i + 1 < 2 ^ 32 by omega) (by decide))
  rw [hv, e] at hp
  unfold number expect dec
  rw [e]
  simp only [if_pos, Option.bind_eq_bind, Option.bind_some]
  rw [Nat.zero_mod] at hp
  rw [hp]
  simp

/-! ## The last separator -/

theorem splitLast_none {c : UInt8} : ∀ {b : Bytes}, c ∉ b → splitLast c b = none
  | [], _ => rfl
  | x :: b, h => by
    rw [splitLast, splitLast_none (fun e => h (by simp [e]))]
    exact if_neg (fun e => h (by simp [e]))

theorem splitLast_app {c : UInt8} {v : Bytes} (hv : c ∉ v) : ∀ (u : Bytes), splitLast c (u ++ c :: v) = some (u, v)
  | [] => by rw [List.nil_append, splitLast, splitLast_none hv]; exact if_pos rfl
  | x :: u => by rw [List.cons_append, splitLast, splitLast_app hv u]

theorem suffix_iff {t u v : Bytes} (ht : 45 ∉ t) (hv : 45 ∉ v) : (45 :: t).isSuffixOf (u ++ 45 :: v) = true ↔ t = v := by
  rw [List.isSuffixOf_iff_suffix]
  constructor
  · rintro ⟨p, hp⟩
    have h1 := splitLast_app ht p
    rw [hp, splitLast_app hv u] at h1
    simp at h1; exact h1.2.symm
  · rintro rfl; exact ⟨u, rfl⟩

theorem before_none {t u v : Bytes} (ht : 45 ∉ t) (hv : 45 ∉ v) (h : v ≠ t) : before (45 :: t) (u ++ 45 :: v) = none := by
  unfold before
  rw [if_neg]
  intro hc
  exact h ((suffix_iff ht hv).1 hc).symm

/-! ## Selectors -/

/-- The selector after decoding. -/
def plainSel (id : Bytes) (m : Nat) : Bytes := 45 :: 115 :: (id ++ writeMask m)

def goodTypes (a m : Nat) : Bytes → Bool
  | d :: c :: b => decide (d = 45) && decide (c ≠ 115) && (typeBit c).isSome && decide (types a 0 0 (c :: b) = some (m, card m))
  | _ => false

theorem types_ok : ∀ m < 8, ∀ a < 8, Fits m a → m ≠ 7 → ∀ r : Req, r.mask = a → ∀ f : Flags, f.optType = true →
    optional f r (writeMask m) = some { r with mask := m, count := card m } := by
  intro m hm a ha h h7 r hr f hf
  rcases h with h | h
  · exact absurd h h7
  have hk : ∀ m < 8, ∀ a < 8, 0 < m → m &&& a = m → m ≠ 7 → ∃ c b, writeMask m = 45 :: c :: b ∧ c ≠ 115 ∧ (typeBit c).isSome = true ∧
      types a 0 0 (c :: b) = some (m, card m) := by
    intro m hm a ha
    have hd : ∀ m < 8, ∀ a < 8, (m == 0 || m &&& a != m || m == 7 || goodTypes a m (writeMask m)) = true := by decide +kernel
    intro h1 h2 h3
    have h4 := hd m hm a ha
    have e1 : (m == 0) = false := by simp; omega
    have e2 : (m &&& a != m) = false := by simp [h2]
    have e3 : (m == 7) = false := by simp [h3]
    rw [e1, e2, e3] at h4
    simp only [Bool.false_or] at h4
    revert h4
    match writeMask m with
    | [] => simp [goodTypes]
    | [_] => simp [goodTypes]
    | d :: c :: b =>
      intro h4
      simp only [goodTypes, Bool.and_eq_true, decide_eq_true_eq] at h4
      obtain ⟨⟨⟨rfl, h5⟩, h6⟩, h7⟩ := h4
      exact ⟨c, b, rfl, h5, h6, h7⟩
  obtain ⟨c, b, h1, h2, h3, h4⟩ := hk m hm a ha h.1 h.2.2 h7
  rw [h1, optional, if_neg (by simp), if_neg (fun e => h2 e.1), endTypes, if_pos ⟨h3, hf⟩, hr, h4]
  rfl

theorem card_le : ∀ a < 8, card a ≤ 3 := by decide

/-- The optional part of a name, for types that fit to the ones of the handler. -/
theorem optional_mask {m a : Nat} (ha : a < 8) (h : Fits m a) {r : Req} (hr : r.mask = a) (hc : r.count = card a) {f : Flags}
    (hf : f.optType = true) : optional f r (writeMask m) = some { r with mask := typesOf m a, count := card (typesOf m a) } := by
  by_cases h7 : m = 7
  · subst h7
    show some r = some { r with mask := a, count := card a }
    rw [← hr] at hc ⊢
    rw [← hc]
  · have : m < 8 := by rcases h with h | h; exact absurd h h7; exact h.2.1
    rw [types_ok m this a ha h h7 r hr f hf]
    unfold typesOf
    rw [if_neg h7]

theorem mask_head (m : Nat) : writeMask m = [] ∨ ∃ b, writeMask m = 45 :: b := by
  unfold writeMask
  split
  · exact .inl rfl
  · exact .inr ⟨_, rfl⟩

theorem extract_id {id : Bytes} (h : 45 ∉ id) (m : Nat) : extract (id ++ writeMask m) = (id, writeMask m) := by
  have h1 : ∀ x ∈ id, (x != 45) = true := fun x hx => by
    simp; intro e; exact h (e ▸ hx)
  unfold extract
  rw [List.takeWhile_append_of_pos h1, List.dropWhile_append_of_pos h1]
  rcases mask_head m with e | ⟨b, e⟩ <;> rw [e] <;> simp

/-- A name with a required variant. -/
theorem parse_variant {m a : Nat} (ha : a < 8) (h : Fits m a) {r : Req} (hr : r.mask = a) (hc : r.count = card a) {f : Flags}
    (hf : f.optType = true) {id : Bytes} (hid : 45 ∉ id) : (do
      let b ← expect 45 (plainSel id m)
      let b ← expect 115 b
      optional f { r with variants := (extract b).1 } (extract b).2) =
    some { r with variants := id, mask := typesOf m a, count := card (typesOf m a) } := by
  unfold plainSel expect
  simp only [if_pos, Option.bind_eq_bind, Option.bind_some]
  rw [extract_id hid m]
  exact optional_mask (r := { r with variants := id }) ha h hr hc hf

theorem sel_head (id : Bytes) (m : Nat) : ∀ c ∈ (plainSel id m).head?, isDigit c = false := by
  intro c hc
  simp [plainSel] at hc
  subst hc; decide

theorem parse_seg {m a i : Nat} (hi : i < 2 ^ 32 - 1) (ha : a < 8) (h : Fits m a) {r : Req} (hr : r.mask = a) (hc : r.count = card a)
    {id : Bytes} (hid : 45 ∉ id) : parseName (segFlags false) r (45 :: (dec (i + 1) ++ plainSel id m)) =
    some { r with seg := i, variants := id, mask := typesOf m a, count := card (typesOf m a) } := by
  have h1 := parse_variant (f := segFlags false) (r := { r with seg := i }) ha h hr hc rfl hid
  rw [← h1]
  unfold parseName
  simp only [segFlags, if_true, number_dec hi _ (sel_head id m), Option.map_some, Option.bind_eq_bind, Option.bind_some]
  simp

theorem parse_part {m a i p : Nat} (hi : i < 2 ^ 32 - 1) (hp : p < 2 ^ 32 - 1) (ha : a < 8) (h : Fits m a) {r : Req} (hr : r.mask = a)
    (hc : r.count = card a) {id : Bytes} (hid : 45 ∉ id) :
    parseName (segFlags true) r (45 :: (dec (i + 1) ++ (45 :: (dec (p + 1) ++ plainSel id m)))) =
    some { r with seg := i, part := p, variants := id, mask := typesOf m a, count := card (typesOf m a) } := by
  have h2 := number_dec hi (45 :: (dec (p + 1) ++ plainSel id m)) (by intro c hc; simp at hc; subst hc; decide)
  have h3 := number_dec hp (plainSel id m) (sel_head id m)
  have h1 := parse_variant (f := segFlags true) (r := { r with seg := i, part := p }) ha h hr hc rfl hid
  rw [← h1]
  unfold parseName
  simp only [segFlags, if_true, h2, h3, Option.map_some, Option.bind_eq_bind, Option.bind_some]

theorem parse_index {m a : Nat} (ha : a < 8) (h : Fits m a) {r : Req} (hr : r.mask = a) (hc : r.count = card a) {id : Bytes}
    (hid : 45 ∉ id) : parseName { variant := true, optType := true } r (plainSel id m) =
    some { r with variants := id, mask := typesOf m a, count := card (typesOf m a) } := by
  have h1 := parse_variant (f := { variant := true, optType := true }) (r := r) ha h hr hc rfl hid
  rw [← h1]
  unfold parseName
  simp only [if_true, Option.bind_eq_bind, Option.bind_some]
  simp

def ids_contains (id : Bytes) : Bool := id.contains 45

/-- The optional variant of a key. -/
theorem key_variant {m : Nat} (h : Fits m 3) {r : Req} (hr : r.mask = 3) (hc : r.count = 2) {id : Bytes} (hid : 45 ∉ id) {f : Flags}
    (hv : f.optVariant = true) (hf : f.optType = true) : optional f r (plainSel id m) =
    some { r with variants := id, mask := typesOf m 3, count := card (typesOf m 3) } := by
  have h1 : extract ((115 :: (id ++ writeMask m)).drop 1) = (id, writeMask m) := extract_id hid m
  have hn : ids_contains id = false := by simpa [ids_contains] using hid
  unfold plainSel
  rw [optional, if_neg (by simp), if_pos ⟨rfl, .inr hv⟩, variantLoop, h1]
  simp only [if_true, List.nil_append]
  by_cases h7 : m = 7
  · subst h7
    rw [show writeMask 7 = [] from rfl]
    show some { r with variants := id } = some { r with variants := id, mask := 3, count := 2 }
    rw [← hr, ← hc]
  · have hm : m < 8 := by rcases h with h | h; exact absurd h h7; exact h.2.1
    have ho := types_ok m hm 3 (by decide) h h7 { r with variants := id } hr f hf
    have hd : ∀ m < 8, m ≠ 7 → (match writeMask m with
        | d :: c :: _ => d == 45 && c != 115
        | _ => m == 0) = true := by decide +kernel
    have hd := hd m hm h7
    have h0 : (m == 0) = false := by rcases h with h | h; exact absurd h h7; simp; omega
    rw [h0] at hd
    unfold typesOf
    rw [if_neg h7, ← ho]
    revert hd
    match writeMask m with
    | [] => simp
    | [_] => simp
    | d :: c :: b =>
      intro hd
      simp only [Bool.and_eq_true, beq_iff_eq, bne_iff_ne, ne_eq] at hd
      obtain ⟨rfl, h2⟩ := hd
      simp only [if_neg h2]
      rw [if_neg (by unfold ids_contains at hn; rw [hn]; simp), optional, if_neg (by simp), if_neg (fun e => h2 e.1)]

/-! ## Whole requests -/

theorem behind_app (p b : Bytes) : behind p (p ++ b) = some b := by
  unfold behind
  rw [if_pos (by rw [List.isPrefixOf_iff_prefix]; exact ⟨b, rfl⟩), List.drop_left]

theorem segOrPart_seg (b : Bytes) : segOrPart (str "seg" ++ b) = some (false, b) := by
  unfold segOrPart; rw [behind_app]

theorem segOrPart_part (b : Bytes) : segOrPart (str "part" ++ b) = some (true, b) := by
  have h : behind (str "seg") (str "part" ++ b) = none := by
    have e : str "part" ++ b = 112 :: 97 :: 114 :: 116 :: b := by
      rw [show str "part" = [112, 97, 114, 116] from by decide]; rfl
    rw [e]
    unfold behind
    rw [show str "seg" = [115, 101, 103] from by decide]
    exact if_neg (by simp [List.isPrefixOf])
  unfold segOrPart; rw [h, behind_app]; rfl

/-- The part of a name before the extension, decoded. -/
def base (id : Bytes) (m : Nat) : Name → Bytes
  | .seg _ i => str "seg" ++ (45 :: (dec (i + 1) ++ plainSel id m))
  | .part _ i p => str "part" ++ (45 :: (dec (i + 1) ++ (45 :: (dec (p + 1) ++ plainSel id m))))
  | .init i => str "init" ++ (45 :: (dec (i + 1) ++ plainSel id m))
  | .index => str "index" ++ plainSel id m
  | .keyChannel => str "enc"
  | .keyType => str "enc" ++ writeMask m
  | .keyVariant => str "enc" ++ plainSel id allTypes
  | .keyTrack => str "enc" ++ plainSel id m

/-- The extension of a name, without the dot. -/
def extOf : Name → Bytes
  | .seg ext _ => ext.drop 1
  | .part ext _ _ => ext.drop 1
  | .init _ => str "mp4"
  | .index => str "m3u8"
  | _ => str "key"

theorem digit_plain {c : UInt8} (h : isDigit c = true) : c ≠ 37 ∧ c ≠ 47 ∧ c ≠ 46 ∧ c ≠ 45 := by
  refine ⟨?_, ?_, ?_, ?_⟩ <;> (rintro rfl; revert h; decide)

theorem dec_all (n : Nat) : ∀ c ∈ dec n, isDigit c = true := by
  have := Sub.digits_all 10 (n % 2 ^ 32)
  intro c hc
  exact List.all_eq_true.1 this c hc

theorem mask_plain (m : Nat) (h : m < 8) : ∀ c ∈ writeMask m, c ≠ 37 ∧ c ≠ 47 ∧ c ≠ 46 := by
  have k : ∀ m < 8, (writeMask m).all (fun c => c != 37 && c != 47 && c != 46) = true := by decide +kernel
  intro c hc
  have := List.all_eq_true.1 (k m h) c hc
  simp only [Bool.and_eq_true, bne_iff_ne, ne_eq] at this
  exact ⟨this.1.1, this.1.2, this.2⟩

theorem pct_sel {id : Bytes} (h0 : 0 ∉ id) {m : Nat} (hm : m < 8) (ext : Bytes) (he : ∀ c ∈ ext, c ≠ 37) :
    pctDecode (sepSelector id m ++ ext) = some (plainSel id m ++ ext) := by
  have e : sepSelector id m ++ ext = [45, 115] ++ (escape id ++ ((writeMask m ++ ext) ++ [])) := by
    simp [sepSelector]
  rw [e, pct_plain _ _ (by decide), pct_escape _ _ h0, pct_plain _ _ ?_]
  · simp [pctDecode, plainSel]
  · intro c hc
    rcases List.mem_append.1 hc with hc | hc
    · exact (mask_plain m hm c hc).1
    · exact he c hc

theorem dec_pct (n : Nat) : ∀ c ∈ dec n, c ≠ 37 := fun c hc => (digit_plain (dec_all n c hc)).1

theorem container_cases {ext : Bytes} {c : Handler × Nat} (h : container ext = some c) :
    (ext = 46 :: str "ts" ∧ c = (.ts, 3)) ∨ (ext = 46 :: str "m4s" ∧ c = (.m4s, 7)) ∨ (ext = 46 :: str "vtt" ∧ c = (.vtt, 4)) := by
  unfold container at h
  have e1 : str ".ts" = 46 :: str "ts" := by decide
  have e2 : str ".m4s" = 46 :: str "m4s" := by decide
  have e3 : str ".vtt" = 46 :: str "vtt" := by decide
  rw [e1, e2, e3] at h
  split at h
  · next he => exact .inl ⟨he, by simpa using h.symm⟩
  split at h
  · next he => exact .inr (.inl ⟨he, by simpa using h.symm⟩)
  split at h
  · next he => exact .inr (.inr ⟨he, by simpa using h.symm⟩)
  · cases h

/-- The dot of an extension. -/
theorem container_dot {ext : Bytes} {c : Handler × Nat} (h : container ext = some c) :
    ext = 46 :: ext.drop 1 ∧ (∀ x ∈ ext, x ≠ 37) ∧ (∀ x ∈ ext.drop 1, x ≠ 46 ∧ x ≠ 47) ∧ c.2 < 8 := by
  rcases container_cases h with ⟨rfl, rfl⟩ | ⟨rfl, rfl⟩ | ⟨rfl, rfl⟩ <;> decide

theorem fits_lt {m a : Nat} (h : Fits m a) : m < 8 := by
  rcases h with h | h
  · omega
  · exact h.2.1

theorem listed_lt {m : Nat} : ∀ {n : Name}, Listed m n → m < 8
  | .seg _ _, h => by obtain ⟨_, _, _, h⟩ := h; exact fits_lt h
  | .part _ _ _, h => by obtain ⟨_, _, _, _, _, h⟩ := h; exact fits_lt h
  | .init _, h => fits_lt h.2
  | .index, h => fits_lt h
  | .keyChannel, h => fits_lt h
  | .keyType, h => fits_lt h
  | .keyVariant, h => fits_lt h
  | .keyTrack, h => fits_lt h

theorem decode_name {id : Bytes} (h0 : 0 ∉ id) {m : Nat} : ∀ {n : Name}, Listed m n →
    pctDecode (write id m n) = some (base id m n ++ 46 :: extOf n) := by
  intro n hl
  have hm := listed_lt hl
  cases n with
  | seg ext i =>
    obtain ⟨_, c, hc, _⟩ := hl
    obtain ⟨h1, h2, _, _⟩ := container_dot hc
    have e : write id m (.seg ext i) = (str "seg" ++ 45 :: dec (i + 1)) ++ (sepSelector id m ++ ext) := by simp [write]
    rw [e, pct_plain _ _ ?_, pct_sel h0 hm ext h2]
    · simp only [Option.map_some, base, extOf]; rw [← h1]; simp
    · intro c hc
      simp only [List.mem_append, List.mem_cons] at hc
      rcases hc with hc | rfl | hc
      · revert c; decide
      · decide
      · exact dec_pct _ c hc
  | part ext i p =>
    obtain ⟨_, _, _, c, hc, _⟩ := hl
    obtain ⟨h1, h2, _, _⟩ := container_dot hc
    have e : write id m (.part ext i p) = (str "part" ++ 45 :: (dec (i + 1) ++ 45 :: dec (p + 1))) ++ (sepSelector id m ++ ext) := by
      simp [write]
    rw [e, pct_plain _ _ ?_, pct_sel h0 hm ext h2]
    · simp only [Option.map_some, base, extOf]; rw [← h1]; simp
    · intro c hc
      simp only [List.mem_append, List.mem_cons] at hc
      rcases hc with hc | rfl | hc | rfl | hc
      · revert c; decide
      · decide
      · exact dec_pct _ c hc
      · decide
      · exact dec_pct _ c hc
  | init i =>
    have e : write id m (.init i) = (str "init" ++ 45 :: dec (i + 1)) ++ (sepSelector id m ++ str ".mp4") := by simp [write]
    rw [e, pct_plain _ _ ?_, pct_sel h0 hm _ (by decide)]
    · simp only [Option.map_some, base, extOf, show str ".mp4" = 46 :: str "mp4" from by decide]; simp
    · intro c hc
      simp only [List.mem_append, List.mem_cons] at hc
      rcases hc with hc | rfl | hc
      · revert c; decide
      · decide
      · exact dec_pct _ c hc
  | index =>
    rw [write, pct_plain _ _ (by decide), pct_sel h0 hm _ (by decide)]
    simp only [Option.map_some, base, extOf, show str ".m3u8" = 46 :: str "m3u8" from by decide]; simp
  | keyChannel =>
    rw [write, pct_plain _ _ (by decide), show pctDecode (str ".key") = some (46 :: str "key") from by decide]
    rfl
  | keyType =>
    rw [write, pct_plain _ _ (by decide), pct_plain _ _ (fun c hc => (mask_plain m hm c hc).1),
      show pctDecode (str ".key") = some (46 :: str "key") from by decide]
    simp [base, extOf]
  | keyVariant =>
    rw [write, pct_plain _ _ (by decide), pct_sel h0 (by decide) _ (by decide)]
    simp only [Option.map_some, base, extOf, show str ".key" = 46 :: str "key" from by decide]; simp
  | keyTrack =>
    rw [write, pct_plain _ _ (by decide), pct_sel h0 hm _ (by decide)]
    simp only [Option.map_some, base, extOf, show str ".key" = 46 :: str "key" from by decide]; simp

theorem valid_ids {id : Bytes} (h : validId id = true) : 47 ∉ id ∧ 45 ∉ id := by
  simp only [validId, Bool.and_eq_true, List.all_eq_true, decide_eq_true_eq, bne_iff_ne, ne_eq] at h
  exact ⟨fun e => (h.2 _ e).1 rfl, fun e => (h.2 _ e).2 rfl⟩

theorem sel_slash {id : Bytes} (h : 47 ∉ id) {m : Nat} (hm : m < 8) : 47 ∉ plainSel id m := by
  simp only [plainSel, List.mem_cons, List.mem_append]
  rintro (e | e | e | e)
  · exact absurd e (by decide)
  · exact absurd e (by decide)
  · exact h e
  · exact (mask_plain m hm _ e).2.1 rfl

theorem dec_slash (n : Nat) : 47 ∉ dec n := fun h => (digit_plain (dec_all n _ h)).2.1 rfl

theorem base_slash {id : Bytes} (h : 47 ∉ id) {m : Nat} (hm : m < 8) (n : Name) : 47 ∉ base id m n := by
  have hs := sel_slash h hm
  have h7 := sel_slash h (show allTypes < 8 by decide)
  have k1 : (47 : UInt8) ∉ str "seg" := by decide
  have k2 : (47 : UInt8) ∉ str "part" := by decide
  have k3 : (47 : UInt8) ∉ str "init" := by decide
  have k4 : (47 : UInt8) ∉ str "index" := by decide
  have k5 : (47 : UInt8) ∉ str "enc" := by decide
  have k6 : (47 : UInt8) ∉ writeMask m := fun e => (mask_plain m hm _ e).2.1 rfl
  cases n <;> simp [base, hs, h7, k1, k2, k3, k4, k5, k6, dec_slash]

theorem ext_plain {m : Nat} : ∀ {n : Name}, Listed m n → 46 ∉ extOf n ∧ 47 ∉ extOf n
  | .seg _ _, h => by
    obtain ⟨_, c, hc, _⟩ := h
    have := (container_dot hc).2.2.1
    exact ⟨fun e => (this _ e).1 rfl, fun e => (this _ e).2 rfl⟩
  | .part _ _ _, h => by
    obtain ⟨_, _, _, c, hc, _⟩ := h
    have := (container_dot hc).2.2.1
    exact ⟨fun e => (this _ e).1 rfl, fun e => (this _ e).2 rfl⟩
  | .init _, _ => by simp only [extOf]; decide
  | .index, _ => by simp only [extOf]; decide
  | .keyChannel, _ => by simp only [extOf]; decide
  | .keyType, _ => by simp only [extOf]; decide
  | .keyVariant, _ => by simp only [extOf]; decide
  | .keyTrack, _ => by simp only [extOf]; decide

/-- A request for a name goes to the parser of its extension. -/
theorem ask_name {id : Bytes} (hv : validId id = true) (h0 : 0 ∉ id) {m : Nat} {n : Name} (hl : Listed m n) (dir : Bytes)
    {p : Req → Bytes → Option (Handler × Req)} (hp : parserOf (extOf n) = some p) {hr : Handler × Req}
    (hb : p {} (base id m n) = some hr) (hc : hr.2.part = invalid ∨ hr.2.count = 1) : ask dir (write id m n) = some hr := by
  have hs : 47 ∉ base id m n ++ 46 :: extOf n := by
    simp only [List.mem_append, List.mem_cons]
    rintro (e | e | e)
    · exact base_slash (valid_ids hv).1 (listed_lt hl) n e
    · exact absurd e (by decide)
    · exact (ext_plain hl).2 e
  unfold ask
  rw [decode_name h0 hl]
  simp only [Option.bind_eq_bind, Option.bind_some]
  unfold coreParse
  rw [splitLast_app hs dir]
  simp only [Option.bind_eq_bind, Option.bind_some]
  rw [splitLast_app (ext_plain hl).1]
  simp only [Option.getD_some, hp, Option.bind_some, hb]
  rw [if_neg]
  rintro ⟨h1, h2⟩
  rcases hc with h | h
  · exact h1 h
  · exact h2 h

/-! ## Formats of subtitles -/

theorem cut_none {u v : Bytes} (hv : 45 ∉ v) (h1 : v ≠ str "wvtt") (h2 : v ≠ str "stpp") : cutFormat (u ++ 45 :: v) = u ++ 45 :: v := by
  unfold cutFormat
  rw [show str "-wvtt" = 45 :: str "wvtt" from by decide, show str "-stpp" = 45 :: str "stpp" from by decide,
    before_none (by decide) hv h1, before_none (by decide) hv h2]
  rfl

theorem cut_sel {id : Bytes} (hv : 45 ∉ id) {m : Nat} (hm : m < 8) (h : ¬ (m = 7 ∧ id = str "tpp")) (u : Bytes) :
    cutFormat (u ++ plainSel id m) = u ++ plainSel id m := by
  by_cases h7 : m = 7
  · subst h7
    have e : plainSel id 7 = 45 :: (115 :: id) := by simp [plainSel, writeMask, allTypes]
    rw [e]
    apply cut_none
    · simp only [List.mem_cons, not_or]; exact ⟨by decide, hv⟩
    · rw [show str "wvtt" = [119, 118, 116, 116] from by decide]; simp
    · rw [show str "stpp" = 115 :: str "tpp" from by decide]
      intro e; exact h ⟨rfl, (List.cons.inj e).2⟩
  · have k : ∀ m < 8, m ≠ 7 → (match writeMask m with
        | d :: t => d == 45 && !t.contains 45 && t != str "wvtt" && t != str "stpp"
        | [] => false) = true := by decide +kernel
    have k := k m hm h7
    revert k
    have e : u ++ plainSel id m = (u ++ 45 :: 115 :: id) ++ writeMask m := by simp [plainSel]
    rw [e]
    match writeMask m with
    | [] => simp
    | d :: t =>
      intro k
      simp only [Bool.and_eq_true, beq_iff_eq, bne_iff_ne, ne_eq, Bool.not_eq_true'] at k
      obtain ⟨⟨⟨rfl, k1⟩, k2⟩, k3⟩ := k
      exact cut_none (by simpa using k1) k2 k3

/-! ## C105 -/

theorem po_ts : parserOf (str "ts") = some parseTs := if_pos rfl
theorem po_m4s : parserOf (str "m4s") = some parseM4s := by
  unfold parserOf; rw [if_neg (by decide), if_pos rfl]
theorem po_mp4 : parserOf (str "mp4") = some parseMp4 := by
  unfold parserOf; rw [if_neg (by decide), if_neg (by decide), if_pos rfl]
theorem po_vtt : parserOf (str "vtt") = some parseVtt := by
  unfold parserOf; rw [if_neg (by decide), if_neg (by decide), if_neg (by decide), if_pos rfl]
theorem po_m3u8 : parserOf (str "m3u8") = some parseM3u8 := by
  unfold parserOf; rw [if_neg (by decide), if_neg (by decide), if_neg (by decide), if_neg (by decide), if_pos rfl]
theorem po_key : parserOf (str "key") = some parseKey := by
  unfold parserOf
  rw [if_neg (by decide), if_neg (by decide), if_neg (by decide), if_neg (by decide), if_neg (by decide), if_pos rfl]

/-- The one kind of names that is not found: fMP4 files of a variant `tpp` with all media types. -/
def Ambiguous (id : Bytes) (m : Nat) : Name → Prop
  | .seg ext _ => ext = str ".m4s" ∧ id = str "tpp" ∧ m = 7
  | .init _ => id = str "tpp" ∧ m = 7
  | _ => False

theorem seg_shape (id : Bytes) (m i : Nat) : (45 :: (dec (i + 1) ++ plainSel id m)) = (45 :: dec (i + 1)) ++ plainSel id m := by simp

theorem part_shape (id : Bytes) (m i p : Nat) : (45 :: (dec (i + 1) ++ (45 :: (dec (p + 1) ++ plainSel id m)))) =
    (45 :: (dec (i + 1) ++ 45 :: dec (p + 1))) ++ plainSel id m := by simp

/-- **C105.** The file that a playlist names is the one that the request for this name is about: the handler of its kind gets the
index of the segment and of the part, the variant and the media types that the name was made of, in whichever directory. -/
theorem name_found_partial {id : Bytes} (hv : validId id = true) (h0 : 0 ∉ id) {m : Nat} {n : Name} (hl : Listed m n)
    (ha : ¬ Ambiguous id m n) (dir : Bytes) : ∃ hr, meaning id m n = some hr ∧ ask dir (write id m n) = some hr := by
  have hd := (valid_ids hv).2
  have hm := listed_lt hl
  cases n with
  | seg ext i =>
    have hl' := hl
    obtain ⟨hi, c, hc, hf⟩ := hl'
    refine ⟨(c.1, { seg := i, variants := id, mask := typesOf m c.2, count := card (typesOf m c.2) }), by simp [meaning, hc], ?_⟩
    rcases container_cases hc with ⟨rfl, rfl⟩ | ⟨rfl, rfl⟩ | ⟨rfl, rfl⟩
    · refine ask_name hv h0 hl dir (p := parseTs) po_ts ?_ (.inl rfl)
      simp only [parseTs, base, segOrPart_seg, Option.bind_eq_bind, Option.bind_some,
        parse_seg (r := { ({} : Req) with mask := 3, count := 2 }) hi (by decide) hf rfl rfl hd]
    · refine ask_name hv h0 hl dir (p := parseM4s) po_m4s ?_ (.inl rfl)
      have hcut := cut_sel hd hm (fun e => ha ⟨by decide, e.2, e.1⟩) (45 :: dec (i + 1))
      rw [← seg_shape] at hcut
      simp only [parseM4s, base, segOrPart_seg, Option.bind_eq_bind, Option.bind_some, hcut,
        parse_seg (r := {}) hi (by decide) hf rfl rfl hd]
    · refine ask_name hv h0 hl dir (p := parseVtt) po_vtt ?_ (.inl rfl)
      simp only [parseVtt, base, segOrPart_seg, Option.bind_eq_bind, Option.bind_some,
        parse_seg (r := { ({} : Req) with mask := 4, count := 1 }) hi (by decide) hf rfl rfl hd]
  | part ext i p =>
    have hl' := hl
    obtain ⟨hi, hp, h1, c, hc, hf⟩ := hl'
    have h7 : m ≠ 7 := by rintro rfl; exact absurd h1 (by decide)
    have ht : ∀ a, card (typesOf m a) = 1 := by intro a; unfold typesOf; rw [if_neg h7]; exact h1
    refine ⟨(c.1, { seg := i, part := p, variants := id, mask := typesOf m c.2, count := card (typesOf m c.2) }),
      by simp [meaning, hc], ?_⟩
    rcases container_cases hc with ⟨rfl, rfl⟩ | ⟨rfl, rfl⟩ | ⟨rfl, rfl⟩
    · refine ask_name hv h0 hl dir (p := parseTs) po_ts ?_ (.inr (ht _))
      simp only [parseTs, base, segOrPart_part, Option.bind_eq_bind, Option.bind_some,
        parse_part (r := { ({} : Req) with mask := 3, count := 2 }) hi hp (by decide) hf rfl rfl hd]
    · refine ask_name hv h0 hl dir (p := parseM4s) po_m4s ?_ (.inr (ht _))
      have hcut := cut_sel hd hm (fun e => h7 e.1) (45 :: (dec (i + 1) ++ 45 :: dec (p + 1)))
      rw [← part_shape] at hcut
      simp only [parseM4s, base, segOrPart_part, Option.bind_eq_bind, Option.bind_some, hcut,
        parse_part (r := {}) hi hp (by decide) hf rfl rfl hd]
    · refine ask_name hv h0 hl dir (p := parseVtt) po_vtt ?_ (.inr (ht _))
      simp only [parseVtt, base, segOrPart_part, Option.bind_eq_bind, Option.bind_some,
        parse_part (r := { ({} : Req) with mask := 4, count := 1 }) hi hp (by decide) hf rfl rfl hd]
  | init i =>
    refine ⟨_, rfl, ?_⟩
    have hl' := hl
    obtain ⟨hi, hf⟩ := hl'
    refine ask_name hv h0 hl dir (p := parseMp4) po_mp4 ?_ (.inl rfl)
    have hcut := cut_sel hd hm (fun e => ha ⟨e.2, e.1⟩) (45 :: dec (i + 1))
    rw [← seg_shape] at hcut
    have h7 : typesOf m 7 = m := by unfold typesOf; split <;> omega
    have hp := parse_seg (r := {}) hi (show 7 < 8 by decide) hf rfl rfl hd
    rw [h7] at hp
    simp only [parseMp4, base, behind_app, Option.bind_eq_bind, Option.bind_some, hcut, hp]
  | index =>
    refine ⟨_, rfl, ?_⟩
    refine ask_name hv h0 hl dir (p := parseM3u8) po_m3u8 ?_ (.inl rfl)
    have h7 : typesOf m 7 = m := by unfold typesOf; split <;> omega
    have hp := parse_index (r := {}) (show 7 < 8 by decide) hl rfl rfl hd
    rw [h7] at hp
    simp only [parseM3u8, base, behind_app, hp, Option.map_some]
  | keyChannel =>
    refine ⟨_, rfl, ?_⟩
    exact ask_name hv h0 hl dir (p := parseKey) po_key (by simp only [base]; decide) (.inl rfl)
  | keyType =>
    refine ⟨_, rfl, ?_⟩
    refine ask_name hv h0 hl dir (p := parseKey) po_key ?_ (.inl rfl)
    simp only [parseKey, base, behind_app, Option.bind_eq_bind, Option.bind_some, parseName]
    simp only [Bool.false_eq_true, if_false]
    rw [optional_mask (a := 3) (by decide) hl rfl rfl rfl]
    rfl
  | keyVariant =>
    refine ⟨_, rfl, ?_⟩
    refine ask_name hv h0 hl dir (p := parseKey) po_key ?_ (.inl rfl)
    simp only [parseKey, base, behind_app, Option.bind_eq_bind, Option.bind_some, parseName]
    simp only [Bool.false_eq_true, if_false]
    rw [key_variant (m := allTypes) (.inl rfl) rfl rfl hd rfl rfl]
    rfl
  | keyTrack =>
    refine ⟨_, rfl, ?_⟩
    refine ask_name hv h0 hl dir (p := parseKey) po_key ?_ (.inl rfl)
    simp only [parseKey, base, behind_app, Option.bind_eq_bind, Option.bind_some, parseName]
    simp only [Bool.false_eq_true, if_false]
    rw [key_variant hl rfl rfl hd rfl rfl]
    rfl

/-- The space kept for the selector is enough. -/
theorem selector_fits (id : Bytes) (m : Nat) : (sepSelector id m).length ≤ sepSelectorSize id := by
  have h1 : ∀ b : Bytes, (escape b).length = b.length + 2 * (b.filter fun c => !keeps c).length := by
    intro b
    induction b with
    | nil => rfl
    | cons c b ih =>
      unfold escape at ih ⊢
      rw [List.flatMap_cons, List.length_append, ih, List.filter_cons]
      by_cases hk : keeps c = true
      · simp [hk]; omega
      · simp [hk]; omega
  have h2 : (writeMask m).length ≤ 4 := by
    unfold writeMask
    split
    · simp
    · simp only [List.length_cons, List.length_append]
      split <;> split <;> split <;> simp
  unfold sepSelector sepSelectorSize
  simp only [List.length_cons, List.length_append, h1]
  omega

end Verif.PName
