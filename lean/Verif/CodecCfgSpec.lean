/-!
# Configuration records of H.264 and H.265

ISO/IEC 14496-15, 5.3.3.1 and 8.3.3.1; the byte stream is ITU-T H.264 Annex B. Nothing of the model is used.
-/

namespace Verif.CodecCfgSpec

/-- A number of 16 bits. -/
def num (n : Nat) : List UInt8 := [UInt8.ofNat (n / 256), UInt8.ofNat (n % 256)]

/-- Units with their sizes. -/
def units (us : List (List UInt8)) : List UInt8 := us.flatMap fun u => num u.length ++ u

/-- Sizes can be written. -/
def Small (us : List (List UInt8)) : Prop := ∀ u ∈ us, u.length < 65536

/-- The byte stream of units. -/
def stream (us : List (List UInt8)) : List UInt8 := us.flatMap fun u => [0, 0, 0, 1] ++ u

/-- A record of H.264: five bytes, the number of sequence parameter sets in the low five bits of a byte, the sets, the number of picture parameter sets in a byte, the sets, and what follows. -/
def Avcc (b : List UInt8) (sps pps : List (List UInt8)) : Prop :=
  Small sps ∧ Small pps ∧ ∃ (hd : List UInt8) (x y : UInt8) (t : List UInt8), hd.length = 5 ∧ x.toNat % 32 = sps.length ∧ y.toNat = pps.length ∧ b = hd ++ x :: (units sps ++ y :: (units pps ++ t))

/-- The arrays of a record of H.265: a type byte, the number of units, the units. -/
def arrays (as : List (UInt8 × List (List UInt8))) : List UInt8 := as.flatMap fun a => a.1 :: (num a.2.length ++ units a.2)

/-- A record of H.265: 22 bytes, the number of arrays, the arrays, and what follows. -/
def Hvcc (b : List UInt8) (as : List (UInt8 × List (List UInt8))) : Prop :=
  (∀ a ∈ as, Small a.2 ∧ a.2.length < 65536) ∧ ∃ (hd : List UInt8) (x : UInt8) (t : List UInt8), hd.length = 22 ∧ x.toNat = as.length ∧ b = hd ++ x :: (arrays as ++ t)

end Verif.CodecCfgSpec
