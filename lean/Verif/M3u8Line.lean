import Verif.M3u8Spec
import Verif.PckgNameProps

/-! # Media playlists: lines are read as written -/

namespace Verif.M3u8

open Verif.Sub (str padded digits)
open Verif.SubSpec (isDigit value)
open Verif.M3u8Spec
open Verif.PName (Bytes Name dec write)

/-! ## Lines of a file -/

theorem split_line {l : Bytes} (h : 10 ∉ l) (b : Bytes) : splitLines (l ++ 10 :: b) = l :: splitLines b := by
  induction l with
  | nil => rw [List.nil_append, splitLines, if_pos rfl]
  | cons c l ih =>
    rw [List.cons_append, splitLines, if_neg (fun e => h (by simp [e])), ih (fun e => h (by simp [e]))]

theorem split_unlines : ∀ (ls : List Bytes), (∀ l ∈ ls, 10 ∉ l) → splitLines (unlines ls) = ls
  | [], _ => rfl
  | l :: ls, h => by
    have e : unlines (l :: ls) = l ++ 10 :: unlines ls := by simp [unlines]
    rw [e, split_line (h l (by simp)), split_unlines ls (fun x hx => h x (by simp [hx]))]

theorem run_append (b : Before) : ∀ (l1 l2 : List Bytes) (s : St), run b s (l1 ++ l2) = (run b s l1).bind fun s => run b s l2
  | [], _, _ => rfl
  | l :: l1, l2, s => by
    rw [List.cons_append, run, run]
    cases line b s l with
    | none => rfl
    | some s => exact run_append b l1 l2 s

/-! ## Cutting -/

theorem cut_at {x : UInt8} {n : Bytes} (h : x ∉ n) (r : Bytes) : cut x (n ++ x :: r) = (n, some r) := by
  induction n with
  | nil => rw [List.nil_append, cut, if_pos rfl]
  | cons c n ih => rw [List.cons_append, cut, if_neg (fun e => h (by simp [e])), ih (fun e => h (by simp [e]))]

theorem cut_none {x : UInt8} {n : Bytes} (h : x ∉ n) : cut x n = (n, none) := by
  induction n with
  | nil => rfl
  | cons c n ih => rw [cut, if_neg (fun e => h (by simp [e])), ih (fun e => h (by simp [e]))]

/-! ## Attribute lists -/

def attrText : Bytes × Val → Bytes
  | (n, .quoted s) => n ++ (61 :: 34 :: (s ++ [34]))
  | (n, .plain s) => n ++ (61 :: s)

def AttrOk : Bytes × Val → Prop
  | (n, .quoted s) => 61 ∉ n ∧ 34 ∉ s
  | (n, .plain s) => 61 ∉ n ∧ 44 ∉ s ∧ 34 ∉ s

theorem attrs_join : ∀ (l : List (Bytes × Val)) (k : Nat), l ≠ [] → l.length ≤ k → (∀ a ∈ l, AttrOk a) →
    attrs k (commas (l.map attrText)) = some l
  | [], _, h, _, _ => absurd rfl h
  | a :: l, 0, _, h, _ => by simp at h
  | (n, v) :: l, k + 1, _, hk, ha => by
    have h1 := ha (n, v) (by simp)
    cases v with
    | quoted s =>
      cases l with
      | nil =>
        show attrs (k + 1) (n ++ (61 :: 34 :: (s ++ [34]))) = _
        rw [attrs, cut_at h1.1]
        simp only [List.head?_cons, List.tail_cons, if_true, cut_at h1.2]
      | cons b l =>
        have e : commas (((n, Val.quoted s) :: b :: l).map attrText) = n ++ 61 :: 34 :: (s ++ 34 :: 44 :: commas ((b :: l).map attrText)) := by
          simp [commas, attrText]
        have ih := attrs_join (b :: l) k (by simp) (by simpa using hk) (fun x hx => ha x (List.mem_cons_of_mem _ hx))
        rw [e, attrs, cut_at h1.1]
        simp only [List.head?_cons, List.tail_cons, if_true, cut_at h1.2, if_neg (show ¬ (44 :: commas ((b :: l).map attrText)) = [] by simp), ih]
        rfl
    | plain s =>
      have hne : ∀ r, (s ++ r).head? = some 34 → r.head? = some 34 := by
        intro r hr
        cases s with
        | nil => exact hr
        | cons c s => simp at hr; exact absurd (show (34:UInt8) ∈ c :: s by simp [hr]) h1.2.2
      cases l with
      | nil =>
        show attrs (k + 1) (n ++ (61 :: s)) = _
        rw [attrs, cut_at h1.1]
        have hs : ¬ s.head? = some 34 := fun e => by have := hne [] (by simpa using e); simp at this
        simp only [if_neg hs, cut_none h1.2.1]
      | cons b l =>
        have e : commas (((n, Val.plain s) :: b :: l).map attrText) = n ++ 61 :: (s ++ 44 :: commas ((b :: l).map attrText)) := by
          simp [commas, attrText]
        have ih := attrs_join (b :: l) k (by simp) (by simpa using hk) (fun x hx => ha x (List.mem_cons_of_mem _ hx))
        rw [e, attrs, cut_at h1.1]
        have hs : ¬ (s ++ 44 :: commas ((b :: l).map attrText)).head? = some 34 := fun e => by have := hne _ e; simp at this
        simp only [if_neg hs, cut_at h1.2.1, ih]
        rfl

theorem commas_len : ∀ (l : List (Bytes × Val)), l.length ≤ (commas (l.map attrText)).length + 1
  | [] => by simp
  | [a] => by simp
  | a :: b :: l => by
    have := commas_len (b :: l)
    simp only [List.map_cons, commas, List.length_append, List.length_cons] at this ⊢
    omega

theorem attrs_read {l : List (Bytes × Val)} (h : l ≠ []) (ha : ∀ a ∈ l, AttrOk a) {v : Bytes} (hv : v = commas (l.map attrText)) :
    attrs (v.length + 1) v = some l := by
  subst hv
  exact attrs_join l _ h (commas_len l) ha

/-! ## Numbers -/

theorem dec_ne (n : Nat) : dec n ≠ [] := by
  unfold dec
  generalize n % 2 ^ 32 = m
  rw [show (10 : Nat) = 9 + 1 from rfl, digits]
  split <;> simp

theorem dec_value {n : Nat} (h : n < 2 ^ 32) : value (dec n) = n := by
  unfold dec
  rw [Nat.mod_eq_of_lt h]
  exact Sub.digits_value 10 n (Nat.lt_of_lt_of_le h (by decide))

theorem num_dec {n : Nat} (h : n < 2 ^ 32) : num (dec n) = some n := by
  unfold num
  rw [if_pos ⟨dec_ne n, by rw [dec]; exact Sub.digits_all _ _⟩, dec_value h]

theorem num_padded {w n : Nat} (hw : 0 < w) (h : n < 2 ^ 32) : num (padded w n) = some n := by
  unfold num
  have := Sub.padded_ge w n
  rw [if_pos ⟨by intro e; rw [e] at this; simp at this; omega, Sub.padded_all w n⟩, Sub.padded_value w n h]

theorem digits_no {b : Bytes} (h : b.all isDigit = true) {x : UInt8} (hx : isDigit x = false) : x ∉ b := by
  intro hm
  have := List.all_eq_true.1 h x hm
  rw [hx] at this; cases this

theorem dec_no (n : Nat) {x : UInt8} (hx : isDigit x = false) : x ∉ dec n := digits_no (by rw [dec]; exact Sub.digits_all _ _) hx

theorem padded_no (w n : Nat) {x : UInt8} (hx : isDigit x = false) : x ∉ padded w n := digits_no (Sub.padded_all w n) hx

theorem millis_secs {v : Nat} (h : v / 1000 < 2 ^ 32) : millis (secs v) = some v := by
  unfold millis secs
  have h3 : v % 1000 < 1000 := Nat.mod_lt _ (by decide)
  rw [cut_at (dec_no _ (by decide))]
  simp only [Sub.padded_three _ h3, if_true, num_dec h, num_padded (show 0 < 3 by decide) (show v % 1000 < 2 ^ 32 by omega), Option.bind_some,
    Option.map_some]
  congr 1; omega

theorem secs_no (v : Nat) {x : UInt8} (hx : isDigit x = false) (h46 : x ≠ 46) : x ∉ secs v := by
  unfold secs
  simp only [List.mem_append, List.mem_cons, not_or]
  exact ⟨dec_no _ hx, h46, padded_no _ _ hx⟩

/-! ## Names -/

/-- The bytes of names: none ends a line or a string. -/
def nameByte (c : UInt8) : Bool := c != 10 && c != 34 && c != 35 && c != 58

theorem escape_bytes (id : Bytes) : ∀ c ∈ PName.escape id, nameByte c = true := by
  have k : ∀ n, n < 256 → (if PName.keeps (UInt8.ofNat n) then [UInt8.ofNat n] else
    [37, PName.hexDigit (UInt8.ofNat n / 16), PName.hexDigit (UInt8.ofNat n % 16)]).all nameByte = true := by decide +kernel
  intro c hc
  unfold PName.escape at hc
  obtain ⟨x, _, hx⟩ := List.mem_flatMap.1 hc
  have := k x.toNat x.toNat_lt
  rw [UInt8.ofNat_toNat] at this
  exact List.all_eq_true.1 this c hx

theorem mask_bytes (m : Nat) : ∀ c ∈ PName.writeMask m, nameByte c = true := by
  intro c hc
  unfold PName.writeMask at hc
  split at hc
  · cases hc
  · simp only [List.mem_cons, List.mem_append] at hc
    rcases hc with rfl | (hc | hc) | hc
    · decide
    all_goals
      split at hc
      · simp at hc; subst hc; decide
      · cases hc

theorem dec_bytes (n : Nat) : ∀ c ∈ dec n, nameByte c = true := by
  intro c hc
  have h := PName.dec_all n c hc
  unfold nameByte
  simp only [Bool.and_eq_true, bne_iff_ne, ne_eq]
  refine ⟨⟨⟨?_, ?_⟩, ?_⟩, ?_⟩ <;> (rintro rfl; revert h; decide)

theorem sel_bytes (id : Bytes) (m : Nat) : ∀ c ∈ PName.sepSelector id m, nameByte c = true := by
  intro c hc
  unfold PName.sepSelector at hc
  simp only [List.mem_cons, List.mem_append] at hc
  rcases hc with rfl | rfl | hc | hc
  · decide
  · decide
  · exact escape_bytes id c hc
  · exact mask_bytes m c hc

def extBytes (n : Name) : Prop := match n with
  | .seg ext _ => ∀ c ∈ ext, nameByte c = true
  | .part ext _ _ => ∀ c ∈ ext, nameByte c = true
  | .init _ => True
  | .index => True
  | _ => False

theorem ext_ok (k : Cont) : ∀ c ∈ k.ext, nameByte c = true := by cases k <;> decide

theorem write_bytes (id : Bytes) (m : Nat) (n : Name) (h : extBytes n) : ∀ c ∈ write id m n, nameByte c = true := by
  have hs := sel_bytes id m
  cases n with
  | seg ext i =>
    intro c hc
    simp only [write, List.mem_append, List.mem_cons] at hc
    rcases hc with hc | rfl | hc | hc | hc
    · revert c; decide
    · decide
    · exact dec_bytes _ c hc
    · exact hs c hc
    · exact h c hc
  | part ext i p =>
    intro c hc
    simp only [write, List.mem_append, List.mem_cons] at hc
    rcases hc with hc | rfl | hc | rfl | hc | hc | hc
    · revert c; decide
    · decide
    · exact dec_bytes _ c hc
    · decide
    · exact dec_bytes _ c hc
    · exact hs c hc
    · exact h c hc
  | init i =>
    intro c hc
    simp only [write, List.mem_append, List.mem_cons] at hc
    rcases hc with hc | rfl | hc | hc | hc
    · revert c; decide
    · decide
    · exact dec_bytes _ c hc
    · exact hs c hc
    · revert c; decide
  | index =>
    intro c hc
    simp only [write, List.mem_append] at hc
    rcases hc with hc | hc | hc
    · revert c; decide
    · exact hs c hc
    · revert c; decide
  | keyChannel => exact h.elim
  | keyType => exact h.elim
  | keyVariant => exact h.elim
  | keyTrack => exact h.elim

theorem write_no {id : Bytes} {m : Nat} {n : Name} (h : extBytes n) {x : UInt8} (hx : nameByte x = false) : x ∉ write id m n := by
  intro hm
  have := write_bytes id m n h x hm
  rw [hx] at this; cases this

/-! ## Tags -/

theorem line_bare (b : Before) (s : St) {n : Bytes} {t : Tag} (h1 : n.head? = some 35) (h2 : 58 ∉ n) (h3 : tagOf n = some t) :
    line b s n = bare s t := by
  cases n with
  | nil => simp at h1
  | cons c n =>
    simp at h1; subst h1
    rw [line, cut_none h2]
    simp only [h3]

theorem line_valued (b : Before) (s : St) {n v : Bytes} {t : Tag} (h1 : n.head? = some 35) (h2 : 58 ∉ n) (h3 : tagOf n = some t) :
    line b s (n ++ 58 :: v) = valued b s v t := by
  cases n with
  | nil => simp at h1
  | cons c n =>
    simp at h1; subst h1
    have e : cut 58 ((35 :: n) ++ 58 :: v) = (35 :: n, some v) := cut_at h2 v
    rw [List.cons_append] at e ⊢
    rw [line, e]
    simp only [h3]

end Verif.M3u8
