/-!
# Byte streams of NAL units

After ISO/IEC 14496-10 and ISO/IEC 23008-2, Annex B; independent of the model.
-/

namespace Verif.NalSpec

/-- A NAL unit: it has bytes, no start code is inside of it, and the last byte is not zero. -/
structure IsNal (n : List UInt8) : Prop where
  bytes : n ≠ []
  inside : ¬ [0, 0, 1] <:+: n
  last : n.getLast? ≠ some 0

/-- A byte stream: every NAL unit has a start code before it, of two zeros or more and a one. `z` are the zeros beyond two. -/
def stream : List (Nat × List UInt8) → List UInt8
  | [] => []
  | (z, n) :: us => List.replicate (z + 2) 0 ++ 1 :: n ++ stream us

/-- The NAL units of any bytes: what is after a start code and before the zeros of the next one. `zeros` is the number of zeros just before,
`cur` is what was read of a NAL unit. -/
def cut : Nat → Option (List UInt8) → List UInt8 → List (List UInt8)
  | _, cur, [] => cur.toList
  | zeros, cur, b :: bs =>
    if b = 0 then cut (zeros + 1) (cur.map (· ++ [b])) bs
    else if zeros < 2 ∨ b ≠ 1 then cut 0 (cur.map (· ++ [b])) bs
    else (cur.map fun a => a.take (a.length - zeros)).toList ++ if bs = [] then [] else cut 0 (some []) bs

/-- A length in four bytes and a NAL unit (ISO/IEC 14496-15). -/
def lengthed (n : List UInt8) : List UInt8 :=
  [UInt8.ofNat (n.length / 16777216), UInt8.ofNat (n.length / 65536), UInt8.ofNat (n.length / 256), UInt8.ofNat n.length] ++ n

end Verif.NalSpec
