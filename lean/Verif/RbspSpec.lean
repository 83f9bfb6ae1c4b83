/-!
# Units and syntax elements of H.264 and H.265

ITU-T H.264, 7.3.1, 7.4.1, 7.2 and 9.1 (H.265: 7.3.1.1, 7.4.2, 7.2 and 9.2). Nothing of the model is used.
-/

namespace Verif.RbspSpec

/-- The bytes of a unit from its payload: a byte 3 comes before a byte up to 3 that follows two zeros. The number is that of the zeros before. -/
def esc : Nat → List UInt8 → List UInt8
  | _, [] => []
  | z, b :: t => if 2 ≤ z ∧ b.toNat ≤ 3 then 3 :: b :: esc (if b = 0 then 1 else 0) t else b :: esc (if b = 0 then z + 1 else 0) t

/-- The payload of a unit from its bytes: a byte 3 that follows two zeros is dropped. -/
def unesc : Nat → List UInt8 → List UInt8
  | _, [] => []
  | z, b :: t => if 2 ≤ z ∧ b = 3 then unesc 0 t else b :: unesc (if b = 0 then z + 1 else 0) t

/-- The `n` bits of a number. -/
def bin : Nat → Nat → List Bool
  | 0, _ => []
  | n + 1, v => decide (v / 2 ^ n % 2 = 1) :: bin n v

def bits (b : List UInt8) : List Bool := b.flatMap fun x => bin 8 x.toNat

/-- Exp-Golomb: `k` zeros, and `v + 1`, which has `k + 1` bits. -/
inductive Golomb : Nat → List Bool → Prop
  | mk {v k : Nat} : 2 ^ k ≤ v + 1 → v + 1 < 2 ^ (k + 1) → Golomb v (List.replicate k false ++ bin (k + 1) (v + 1))

/-- The number of a signed value. -/
def zig (v : Int) : Nat := if 0 < v then (2 * v - 1).toNat else (-2 * v).toNat

/-- Syntax elements. -/
inductive Elem
  | u (n v : Nat)
  | ue (v : Nat)
  | se (v : Int)
deriving DecidableEq, Repr

/-- Elements and their bits. -/
inductive Code : Elem → List Bool → Prop
  | u {n v : Nat} : v < 2 ^ n → Code (.u n v) (bin n v)
  | ue {v : Nat} {l : List Bool} : Golomb v l → Code (.ue v) l
  | se {v : Int} {l : List Bool} : Golomb (zig v) l → Code (.se v) l

inductive Codes : List Elem → List Bool → Prop
  | nil : Codes [] []
  | cons {e : Elem} {es : List Elem} {l t : List Bool} : Code e l → Codes es t → Codes (e :: es) (l ++ t)

end Verif.RbspSpec
