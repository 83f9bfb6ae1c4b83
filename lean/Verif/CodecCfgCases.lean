import Verif.CodecCfgProps

/-!
# Codec configuration records: cases
-/

namespace Verif.CodecCfg

open Verif.CodecCfgSpec

/-! ## C127 -/

def sps0 : List (List UInt8) := [[0x67, 0x64, 0, 0x1f]]

def pps0 : List (List UInt8) := [[0x68, 0xee], [0x68, 1, 2]]

def avcc0 : List UInt8 := [1, 0x64, 0, 0x1f, 0xff, 0xe1, 0, 4, 0x67, 0x64, 0, 0x1f, 2, 0, 2, 0x68, 0xee, 0, 3, 0x68, 1, 2, 0xfd, 0xf8]

example : Avcc avcc0 sps0 pps0 ∧ pps0.length < 32 ∧ sps0 ++ pps0 ≠ [] :=
  ⟨⟨by unfold Small; decide, by unfold Small; decide, [1, 0x64, 0, 0x1f, 0xff], 0xe1, 2, [0xfd, 0xf8], by decide +kernel⟩, by decide, by decide⟩

example : avcc avcc0 = .ok (some [0, 0, 0, 1, 0x67, 0x64, 0, 0x1f, 0, 0, 0, 1, 0x68, 0xee, 0, 0, 0, 1, 0x68, 1, 2]) ∧ avccLen avcc0 = 4 ∧ avcc (avcc0.take 20) = .ok none ∧ avccLen (avcc0.take 4) = 0 := by
  decide +kernel

/-- C127 in full: with any number of picture parameter sets. -/
def Avccs : Prop := ∀ (b : List UInt8) (sps pps : List (List UInt8)), Avcc b sps pps → sps ++ pps ≠ [] → avcc b = .ok (some (stream (sps ++ pps)))

/-- 32 picture parameter sets, none of which is written. -/
theorem not_avccs : ¬ Avccs := by
  intro h
  refine absurd (h ([1, 0x64, 0, 0x1f, 0xff] ++ 0xe1 :: (units sps0 ++ 32 :: (units (List.replicate 32 [0x68]) ++ []))) sps0 (List.replicate 32 [0x68])
    ⟨by unfold Small; decide, by unfold Small; decide +kernel, _, 0xe1, 32, [], by decide, by decide, by decide, rfl⟩ (by decide)) (by decide +kernel)

/-! ## C128 -/

def as0 : List (UInt8 × List (List UInt8)) := [(0xa0, [[0x40, 1]]), (0xa1, [[0x42, 1, 1]]), (0x27, []), (0xa2, [[0x44, 1], [0x44, 2]])]

def hvcc0 : List UInt8 := List.replicate 21 1 ++ 0xf3 :: 4 :: (arrays as0 ++ [7])

example : Hvcc hvcc0 as0 ∧ as0.flatMap (·.2) ≠ [] := ⟨⟨by unfold Small; decide, List.replicate 21 1 ++ [0xf3], 4, [7], by decide +kernel⟩, by decide⟩

example : hvcc hvcc0 = .ok (some [0, 0, 0, 1, 0x40, 1, 0, 0, 0, 1, 0x42, 1, 1, 0, 0, 0, 1, 0x44, 1, 0, 0, 0, 1, 0x44, 2]) ∧ hvccLen hvcc0 = 4 ∧ hvcc (hvcc0.take 40) = .ok none := by decide +kernel

/-- A record without units. -/
example : hvcc (List.replicate 22 1 ++ [0]) = .ok none := by decide +kernel

end Verif.CodecCfg
