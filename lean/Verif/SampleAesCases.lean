import Verif.SampleAesProps
import Verif.FrameEncProps
import Verif.CbcCases

/-!
# SAMPLE-AES: cases
-/

namespace Verif.SampleAes

open Verif.Cbc

/-! ## C130 -/

/-- A slice whose clear bytes are counted; the zeros need bytes 3. -/
def slice (n : Nat) : List UInt8 := 0x65 :: (List.range (n - 1)).map fun i => if i % 7 < 4 then 0 else UInt8.ofNat i

/-- The hypotheses of `unit_play` hold for `toy` (`toy_undoes`). Cuts within the start, within blocks and within clear bytes; two blocks are encrypted. -/
example : (match unit toy iv0 [(slice 230).take 5, ((slice 230).drop 5).take 30, ((slice 230).drop 35).take 6, [], (slice 230).drop 41], unit toy iv0 [slice 230] with
    | .ok o, .ok o' => o == o' && o != slice 230 && o.length > 230 && SampleAesSpec.play toyD iv0 o == slice 230
    | _, _ => false) = true := by decide +kernel

/-- The size from which units are encrypted, and one byte less. -/
example : unit toy iv0 [slice 48] = .ok (slice 48) ∧ (unit toy iv0 [slice 49] == .ok (slice 49)) = false := by decide +kernel

/-- Other units are as they were. -/
example : unit toy iv0 [0x67 :: slice 99] = .ok (0x67 :: slice 99) := by decide +kernel

/-- A last block of 16 bytes is clear, one of 17 is not. -/
example : (match unit toy iv0 [List.replicate 208 0x61], unit toy iv0 [List.replicate 209 0x61] with
    | .ok a, .ok b => a.drop 192 == List.replicate 16 0x61 && b.drop 192 != List.replicate 17 0x61
    | _, _ => false) = true := by decide +kernel

/-- Bytes that the third part of `unit_play` is about: no start code in, none out. -/
example : (match unit toy (List.replicate 16 0x3b) [List.replicate 60 0x61] with
    | .ok o => o.length == 67 && (o.drop 32).take 5 == [0, 0, 3, 0, 0]
    | _ => false) = true := by decide +kernel

end Verif.SampleAes

namespace Verif.FrameEnc

open Verif.Cbc

/-! ## C131 -/

def samples (n : Nat) : List UInt8 := (List.range n).map UInt8.ofNat

/-- A frame in parts that end within the lead, within blocks and within the trail, after another frame; more than the buffer at once. -/
example : (match frame toy iv0 ⟨samples 16, [1, 2, 3]⟩ [(samples 700).take 3, ((samples 700).drop 3).take 20, ((samples 700).drop 23).take 673, (samples 700).drop 696], frame toy iv0 ⟨[], []⟩ [samples 700] with
    | .ok o, .ok o' => o == o' && o.length == 700 && o.take 16 == samples 16 && (o.drop 16).take 16 != ((samples 700).drop 16).take 16 && FrameEncSpec.play toyD iv0 o == samples 700
    | _, _ => false) = true := by decide +kernel

/-- Frames of less than two blocks are clear, whatever the state. -/
example : frame toy iv0 ⟨[], [9]⟩ [samples 20, samples 11] = .ok (samples 20 ++ samples 11) := by decide +kernel

end Verif.FrameEnc
