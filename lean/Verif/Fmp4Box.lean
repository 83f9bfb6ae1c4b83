import Verif.Fmp4Data
import Verif.Fmp4Spec

/-!
# Boxes are read as they were written
-/

namespace Verif.Fmp4

open Fmp4Spec (num slice Box boxes allBoxes kind the Sample Entry readEntry readEntries readTrun readTruns signed opt)

theorem be32_length (n : Nat) : (be32 n).length = 4 := rfl
theorem be64_length (n : Nat) : (be64 n).length = 8 := rfl
theorem name_length (a b c d : Char) : (name a b c d).length = 4 := rfl

theorem num_be32 (n : Nat) : num (be32 n) = n % 2 ^ 32 := by
  unfold num be32
  simp only [List.foldl_cons, List.foldl_nil, UInt8.toNat_ofNat']
  omega

theorem num_be64 (n : Nat) : num (be64 n) = n % 2 ^ 64 := by
  unfold num be64 be32
  simp only [List.cons_append, List.nil_append, List.foldl_cons, List.foldl_nil, UInt8.toNat_ofNat']
  omega

theorem num_be32_lt {n : Nat} (h : n < 2 ^ 32) : num (be32 n) = n := by rw [num_be32, Nat.mod_eq_of_lt h]

/-- Boxes as bytes: type and content. -/
def enc (l : List (Bytes × Bytes)) : Bytes := l.flatMap fun x => atom (8 + x.2.length) x.1 ++ x.2

/-- The boxes that are read. -/
def toBoxes : Nat → List (Bytes × Bytes) → List Box
  | _, [] => []
  | pos, x :: l => ⟨pos, x.1, x.2⟩ :: toBoxes (pos + (8 + x.2.length)) l

theorem enc_cons (x : Bytes × Bytes) (l : List (Bytes × Bytes)) : enc (x :: l) = atom (8 + x.2.length) x.1 ++ x.2 ++ enc l := rfl

theorem enc_append (l m : List (Bytes × Bytes)) : enc (l ++ m) = enc l ++ enc m := by
  unfold enc; rw [List.flatMap_append]

theorem atom_length {s : Nat} {nm : Bytes} (h : nm.length = 4) : (atom s nm).length = 8 := by
  unfold atom; rw [List.length_append, be32_length, h]

theorem boxes_step {n pos : Nat} {nm body rest : Bytes} (hn : nm.length = 4) (hb : 8 + body.length < 2 ^ 32) :
    boxes (n + 1) pos (atom (8 + body.length) nm ++ body ++ rest)
      = (boxes n (pos + (8 + body.length)) rest).map (⟨pos, nm, body⟩ :: ·) := by
  obtain ⟨a, b, c, d, rfl⟩ : ∃ a b c d, nm = [a, b, c, d] := by
    match nm, hn with
    | [a, b, c, d], _ => exact ⟨a, b, c, d, rfl⟩
  have h4 : num ((atom (8 + body.length) [a, b, c, d] ++ body ++ rest).take 4) = 8 + body.length := by
    exact num_be32_lt hb
  have hd : (atom (8 + body.length) [a, b, c, d] ++ body ++ rest).drop (8 + body.length) = rest := by
    rw [← List.drop_drop]
    show (body ++ rest).drop body.length = rest
    rw [List.drop_left]
  have hsl : slice (atom (8 + body.length) [a, b, c, d] ++ body ++ rest) 8 (8 + body.length - 8) = body := by
    rw [Nat.add_sub_cancel_left]
    show (body ++ rest).take body.length = body
    rw [List.take_left]
  have hk : slice (atom (8 + body.length) [a, b, c, d] ++ body ++ rest) 4 4 = [a, b, c, d] := rfl
  obtain ⟨x, t, hx⟩ : ∃ x t, atom (8 + body.length) [a, b, c, d] ++ body ++ rest = x :: t := ⟨_, _, rfl⟩
  have hlen : (x :: t).length = 8 + body.length + rest.length := by
    rw [← hx, List.length_append, List.length_append, atom_length rfl]
  rw [hx] at h4 hd hsl hk ⊢
  rw [boxes]
  simp only [h4]
  · rw [if_neg (by omega), hd, hsl, hk]
  · intro h; cases h

/-- Boxes are read as they were written. -/
theorem boxes_enc {l : List (Bytes × Bytes)} {n pos : Nat} (hl : ∀ x ∈ l, x.1.length = 4) (hb : (enc l).length < 2 ^ 32)
    (hn : l.length ≤ n) : boxes n pos (enc l) = some (toBoxes pos l) := by
  induction l generalizing n pos with
  | nil => cases n <;> rfl
  | cons x l ih =>
    obtain ⟨nm, body⟩ := x
    cases n with
    | zero => simp at hn
    | succ n =>
      have h4 : nm.length = 4 := hl (nm, body) List.mem_cons_self
      rw [enc_cons] at hb ⊢
      rw [List.length_append, List.length_append, atom_length h4] at hb
      simp only at hb ⊢
      rw [boxes_step h4 (by omega), ih (fun y hy => hl y (List.mem_cons_of_mem _ hy)) (by omega) (by simpa using hn)]
      rfl

theorem enc_length_ge (l : List (Bytes × Bytes)) : l.length ≤ (enc l).length := by
  induction l with
  | nil => exact Nat.le_refl _
  | cons x l ih =>
    rw [enc_cons, List.length_append, List.length_append, List.length_cons]
    unfold atom
    rw [List.length_append, be32_length]
    omega

theorem allBoxes_enc {l : List (Bytes × Bytes)} {pos : Nat} (hl : ∀ x ∈ l, x.1.length = 4) (hb : (enc l).length < 2 ^ 32) :
    allBoxes pos (enc l) = some (toBoxes pos l) := boxes_enc hl hb (enc_length_ge l)

theorem toBoxes_append {pos : Nat} {l : List (Bytes × Bytes)} (hl : ∀ x ∈ l, x.1.length = 4) (m : List (Bytes × Bytes)) :
    toBoxes pos (l ++ m) = toBoxes pos l ++ toBoxes (pos + (enc l).length) m := by
  induction l generalizing pos with
  | nil => rfl
  | cons x l ih =>
    rw [List.cons_append, toBoxes, toBoxes, ih fun y hy => hl y (List.mem_cons_of_mem _ hy), List.cons_append, enc_cons,
      List.length_append, List.length_append, atom_length (hl x List.mem_cons_self), Nat.add_assoc, Nat.add_assoc]

/-! ## Entries -/

/-- An entry as bytes. -/
def encEntry (k : Kind) (e : Entry) : Bytes :=
  match k with
  | .video => be32 e.dur ++ be32 e.size ++ be32 e.flags ++ be32 e.cts
  | .audio => be32 e.dur ++ be32 e.size
  | .cue => be32 e.dur ++ be32 e.size ++ be32 e.cts

/-- An entry with numbers of 32 bits, and 0 for what is not written. -/
def EntryOk (k : Kind) (e : Entry) : Prop :=
  e.dur < 2 ^ 32 ∧ e.size < 2 ^ 32 ∧ e.flags < 2 ^ 32 ∧ e.cts < 2 ^ 32 ∧
  match k with
  | .video => True
  | .audio => e.flags = 0 ∧ e.cts = 0
  | .cue => e.flags = 0

theorem encEntry_length (k : Kind) (e : Entry) : (encEntry k e).length = k.entrySize := by
  cases k <;> rfl

/-- The flags of a `trun`. -/
def Kind.low (k : Kind) : Nat := k.flags % 2 ^ 24

theorem opt_be32 {n : Nat} (h : n < 2 ^ 32) (r : Bytes) : opt true (be32 n ++ r) = (n, r) := by
  unfold opt
  rw [if_pos rfl]
  show (num (be32 n), r) = (n, r)
  rw [num_be32_lt h]

theorem readEntry_enc {k : Kind} {e : Entry} (h : EntryOk k e) (r : Bytes) : readEntry k.low (encEntry k e ++ r) = (e, r) := by
  obtain ⟨h1, h2, h3, h4, h5⟩ := h
  obtain ⟨d, s, f, c⟩ := e
  unfold readEntry
  cases k with
  | video =>
    simp only [show Kind.low .video = 0xf01 from rfl, show Nat.testBit 0xf01 8 = true from rfl, show Nat.testBit 0xf01 9 = true from rfl,
      show Nat.testBit 0xf01 10 = true from rfl, show Nat.testBit 0xf01 11 = true from rfl, encEntry, List.append_assoc, opt_be32 h1, opt_be32 h2,
      opt_be32 h3, opt_be32 h4]
  | audio =>
    obtain ⟨h5, h6⟩ := h5
    simp only at h5 h6
    subst h5; subst h6
    simp only [show Kind.low .audio = 0x301 from rfl, show Nat.testBit 0x301 8 = true from rfl, show Nat.testBit 0x301 9 = true from rfl,
      show Nat.testBit 0x301 10 = false from rfl, show Nat.testBit 0x301 11 = false from rfl, encEntry, List.append_assoc, opt_be32 h1, opt_be32 h2]
    rfl
  | cue =>
    simp only at h5
    subst h5
    simp only [show Kind.low .cue = 0xb01 from rfl, show Nat.testBit 0xb01 8 = true from rfl, show Nat.testBit 0xb01 9 = true from rfl,
      show Nat.testBit 0xb01 10 = false from rfl, show Nat.testBit 0xb01 11 = true from rfl, encEntry, List.append_assoc, opt_be32 h1, opt_be32 h2]
    show (Entry.mk d s 0 (opt true (be32 c ++ r)).1, (opt true (be32 c ++ r)).2) = _
    rw [opt_be32 h4]

theorem entrySize_low (k : Kind) : Fmp4Spec.entrySize k.low = k.entrySize := by cases k <;> rfl

theorem readEntries_enc {k : Kind} {es : List Entry} (h : ∀ e ∈ es, EntryOk k e) :
    readEntries k.low es.length (es.flatMap (encEntry k)) = some es := by
  induction es with
  | nil => rfl
  | cons e es ih =>
    rw [List.flatMap_cons]
    rw [List.length_cons, readEntries, if_neg (by rw [List.length_append, encEntry_length, entrySize_low]; omega),
      readEntry_enc (h e List.mem_cons_self), ih fun x hx => h x (List.mem_cons_of_mem _ hx)]
    rfl

end Verif.Fmp4
