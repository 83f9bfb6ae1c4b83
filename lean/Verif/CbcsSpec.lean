import Verif.CbcSpec

/-!
# Decryption of samples with the scheme cbcs

ISO/IEC 23001-7, 9.5 and 10.4, with the pattern 1:9 and a constant IV. `D` is the block cipher backwards. Nothing of the model is used.
-/

namespace Verif.CbcsSpec

open Verif.CbcSpec (xorB dec)

/-- Of ten blocks the first is encrypted; a rest that is less than a block is clear. The number is at least the length. -/
def unpat (D : List UInt8 → List UInt8) : Nat → List UInt8 → List UInt8 → List UInt8
  | 0, _, d => d
  | k + 1, c, d => if d.length < 16 then d else xorB (D (d.take 16)) c ++ (d.drop 16).take 144 ++ unpat D k (d.take 16) (d.drop 160)

/-- A unit: slices are encrypted after their headers; those that have less than 18 bytes, and other units, are clear. The header of a slice is within the first 128 bytes. -/
def decUnit (D : List UInt8 → List UInt8) (iv : List UInt8) (isSlice : UInt8 → Option Bool) (head : List UInt8 → Option Nat) : List UInt8 → Option (List UInt8)
  | [] => none
  | t :: d =>
    match isSlice t with
    | none => none
    | some false => some (t :: d)
    | some true =>
      if (t :: d).length < 18 then some (t :: d)
      else (head ((t :: d).take 128)).map fun h => (t :: d).take h ++ unpat D (d.length + 1) iv ((t :: d).drop h)

def num (l : List UInt8) : Nat := l.foldl (fun a b => a * 256 + b.toNat) 0

/-- Data of a frame of video in units, with sizes of `n` bytes before them. -/
inductive Units (n : Nat) : List (List UInt8) → List UInt8 → Prop
  | nil : Units n [] []
  | cons {s u : List UInt8} {us : List (List UInt8)} {d : List UInt8} : s.length = n → num s = u.length → u ≠ [] → Units n us d → Units n (u :: us) (s ++ u ++ d)

/-- `x` is decrypted to `d`, unit by unit; sizes are the same. -/
def Video (D : List UInt8 → List UInt8) (iv : List UInt8) (n : Nat) (isSlice : UInt8 → Option Bool) (head : List UInt8 → Option Nat) (x d : List UInt8) : Prop :=
  ∃ us vs, Units n us x ∧ Units n vs d ∧ us.map List.length = vs.map List.length ∧ us.map (decUnit D iv isSlice head) = vs.map some

/-- Audio: all full blocks of a frame are encrypted. -/
def decAudio (D : List UInt8 → List UInt8) (iv d : List UInt8) : List UInt8 := dec D (d.length / 16) iv d ++ d.drop (16 * (d.length / 16))

/-- A unit of one byte, or a slice of at least 18 and at most 128 bytes with less than a block after the header. -/
def Short (isSlice : UInt8 → Option Bool) (head : List UInt8 → Option Nat) (u : List UInt8) : Prop :=
  u.length = 1 ∨ 18 ≤ u.length ∧ u.length ≤ 128 ∧ (∃ t, u.head? = some t ∧ isSlice t = some true) ∧ ∃ h, head u = some h ∧ u.length < h + 16

/-- A header is known from its own bytes. -/
def Own (head : List UInt8 → Option Nat) : Prop := ∀ b b' h, head b = some h → 2 ≤ h ∧ h ≤ b.length ∧ (b'.length = b.length → b'.take h = b.take h → head b' = some h)

/-- The last unit of the frame is short. -/
def ShortEnd (n : Nat) (isSlice : UInt8 → Option Bool) (head : List UInt8 → Option Nat) (d : List UInt8) : Prop :=
  ∃ us u, Units n us d ∧ us.getLast? = some u ∧ Short isSlice head u

/-- A frame of units of at least `hdr` bytes, with slices that can be read. -/
def Good (n hdr : Nat) (isSlice : UInt8 → Option Bool) (head : List UInt8 → Option Nat) (d : List UInt8) : Prop :=
  ∃ us, Units n us d ∧ ∀ u ∈ us, hdr ≤ u.length ∧ ∃ t b, u.head? = some t ∧ isSlice t = some b ∧ (b = true → 18 ≤ u.length → ∃ h, head (u.take 128) = some h)

inductive Each (R : List UInt8 → List UInt8 → Prop) : List (List UInt8) → List (List UInt8) → Prop
  | nil : Each R [] []
  | cons {x d : List UInt8} {xs ds : List (List UInt8)} : R x d → Each R xs ds → Each R (x :: xs) (d :: ds)

end Verif.CbcsSpec
