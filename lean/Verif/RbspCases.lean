import Verif.RbspProps
import Verif.RbspBits

/-!
# Emulation prevention and bit streams: cases
-/

namespace Verif.Rbsp

open Verif.RbspSpec

/-! ## C124 -/

/-- A payload with zeros. -/
def r0 : List UInt8 := [0x65, 0, 0, 1, 0, 0, 3, 0, 0, 0, 7]

example : esc 0 r0 = [0x65, 0, 0, 3, 1, 0, 0, 3, 3, 0, 0, 3, 0, 7] ∧ decode (esc 0 r0) = (r0, true) ∧ decode ((esc 0 r0).take 7) = ([0x65, 0, 0, 1, 0, 0], true) := by decide +kernel

/-- A cut before the byte 3, and a unit without any. -/
example : decode ((esc 0 r0).take 3) = ([0x65, 0, 0], false) ∧ decode [1, 2, 0, 3] = ([1, 2, 0, 3], false) := by decide +kernel

/-! ## C125 -/

example : 5 ≤ (decode ((esc 0 r0).take 7)).1.length ∧ ¬ [0, 0, 0, 0] <:+: r0.take 5 := by decide +kernel

example : headerSize 1 5 ((esc 0 r0).take 7) = 7 ∧ headerSize 1 7 (esc 0 r0) = 10 := by decide +kernel

/-- C125 in full: with any header. -/
def Sizes : Prop :=
  ∀ (r : List UInt8) (h m k : Nat), k ≤ (decode ((esc 0 r).take m)).1.length → headerSize h k ((esc 0 r).take m) = h + (esc 0 (r.take k)).length

/-- With five zeros one of two bytes is not counted: the size is one byte short. -/
theorem not_sizes : ¬ Sizes := fun h => absurd (h [0x88, 0, 0, 0, 0, 0, 9, 9] 1 128 7 (by decide +kernel)) (by decide +kernel)

example : esc 0 [0x88, 0, 0, 0, 0, 0, 9, 9] = [0x88, 0, 0, 3, 0, 0, 3, 0, 9, 9] ∧ headerSize 1 7 [0x88, 0, 0, 3, 0, 0, 3, 0, 9, 9] = 9 := by decide +kernel

/-! ## C126 -/

/-- The start of a slice header: `ue(0)`, `ue(5)`, four bits, two bits that are skipped, `se(-3)`, `ue(2)` that is skipped. -/
def es0 : List Elem := [.ue 0, .ue 5, .u 4 9, .u 2 1, .se (-3), .ue 2]

def os0 : List Op := [.ue, .ue, .get 4, .skip 2, .se, .skipUe]

def bits0 : List Bool := bin 1 1 ++ (bin 5 6 ++ (bin 4 9 ++ (bin 2 1 ++ (bin 5 7 ++ (bin 3 3 ++ [])))))

theorem codes0 : Codes es0 bits0 := by
  refine .cons (.ue (Golomb.mk (k := 0) (by decide) (by decide))) (.cons (.ue ?_) (.cons (.u (by decide)) (.cons (.u (by decide)) (.cons (.se ?_) (.cons (.ue ?_) .nil)))))
  · exact Golomb.mk (v := 5) (k := 2) (by decide) (by decide)
  · exact Golomb.mk (v := 6) (k := 2) (by decide) (by decide)
  · exact Golomb.mk (v := 2) (k := 1) (by decide) (by decide)

theorem reads0 : ReadsAll os0 es0 [some 0, some 5, some 9, none, some (-3), none] :=
  .cons (.ue (by decide)) (.cons (.ue (by decide)) (.cons (.get (by decide)) (.cons (.skip (by decide)) (.cons (.se (by decide)) (.cons (.skipUe (by decide)) .nil)))))

example : bits [0x9a, 0x53, 0xb7, 0xff] = bits0 ++ bin 4 7 ++ bin 8 255 := by decide +kernel

example : runs os0 (R.init [0x9a, 0x53, 0xb7, 0xff]) = .ok ([some 0, some 5, some 9, none, some (-3), none], ⟨[0xff], 0xb7, 3, false⟩) := by decide +kernel

example : bits [0x9a, 0x53] ++ bits0.drop 16 = bits0 ∧ bits0.drop 16 ≠ [] := by decide +kernel

/-- The data ends within the signed value. -/
example : (match runs os0 (R.init [0x9a, 0x53]) with | .ok x => x.2.eof | _ => false) = true := by decide +kernel

/-- C126 does not hold for all codes: a value of 32 bits shifts into the sign. -/
theorem not_ue : ¬ ∀ (v : Nat) (l t : List Bool) (b : List UInt8), Golomb v l → bits b = l ++ t → (R.init b).ue ≠ .ub := by
  intro h
  refine h (2 ^ 31 - 1) _ (bin 1 0) [0, 0, 0, 1, 0, 0, 0, 0] (Golomb.mk (k := 31) (by decide) (by decide)) (by decide +kernel) (by decide +kernel)

/-- Nor for all sizes: a skip of 136 bits goes back to the start of the byte. -/
theorem not_skip : ¬ ∀ (n : Nat) (b : List UInt8), n ≤ (bits b).length → 8 * ((R.init b).skip n).rest.length ≤ (bits b).length - n := by
  intro h
  exact absurd (h 136 (List.replicate 20 0) (by decide +kernel)) (by decide +kernel)

end Verif.Rbsp
