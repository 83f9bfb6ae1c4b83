import Verif.Eac3EncAny
import Verif.CbcCases

/-!
# SAMPLE-AES of E-AC-3: cases
-/

namespace Verif.Eac3Enc

open Verif.Cbc

/-! ## C132 -/

/-- A sync frame of `2 * (n + 1)` bytes. -/
def syncF (n : Nat) : List UInt8 := [0x0b, 0x77, UInt8.ofNat (0x40 + n / 256), UInt8.ofNat n] ++ (List.range (2 * (n + 1) - 4)).map UInt8.ofNat

/-- Sync frames with and without encrypted blocks. -/
def some3 : List (List UInt8) := [syncF 30, syncF 9, syncF 300]

/-- The hypotheses of `frame_play`. -/
example : (∀ G ∈ some3, Eac3EncSpec.Sync G) ∧ some3 ≠ [] := by
  unfold Eac3EncSpec.Sync
  decide +kernel

/-- Cuts within headers and blocks, and at the end of a header. -/
example : (match frame toy iv0 ⟨[], [1]⟩ [some3.flatten.take 3, (some3.flatten.drop 3).take 4, (some3.flatten.drop 7).take 60, [], some3.flatten.drop 67], frame toy iv0 ⟨[], []⟩ [some3.flatten] with
    | .ok o, .ok o' => o == o' && o.length == 684 && o != some3.flatten && o.take 16 == some3.flatten.take 16 && Eac3EncSpec.play toyD 4 iv0 o == some3.flatten
    | _, _ => false) = true := by decide +kernel

/-- A frame that is too small for encryption, with a cipher that was not set. -/
example : frame toy iv0 ⟨[], [1]⟩ [syncF 9] = .ok (syncF 9) := by decide +kernel

/-- Refused: another word, a size that is too large, bytes at the end (`frame_any`). -/
example : frame toy iv0 ⟨[], []⟩ [some3.flatten ++ [1]] = .err ∧ frame toy iv0 ⟨[], []⟩ [0x0c :: (syncF 30).drop 1] = .err ∧ frame toy iv0 ⟨[], []⟩ [(syncF 30).take 61] = .err := by decide +kernel

end Verif.Eac3Enc
