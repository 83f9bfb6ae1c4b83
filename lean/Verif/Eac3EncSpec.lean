import Verif.FrameEncSpec

/-!
# Players of SAMPLE-AES: E-AC-3

A frame is sync frames (ETSI TS 102 366, annex E: sync word 0x0b77, and in bits 21 to 31 the size in words of two bytes, less one). Each has the clear lead, the full blocks and the clear trail of
other audio; the chain goes on from one sync frame to the next, and begins with the IV at each frame. That the chain goes on is how the code is meant (only the start of a frame sets the IV); the text of
Apple was not at hand. Of the model nothing is used.
-/

namespace Verif.Eac3EncSpec

open Verif.CbcSpec

/-- Bytes in a sync frame. -/
def size (o : List UInt8) : Nat := 2 * (((o.getD 2 0).toNat % 8) * 256 + (o.getD 3 0).toNat + 1)

def Sync (F : List UInt8) : Prop := F.getD 0 0 = 0x0b ∧ F.getD 1 0 = 0x77 ∧ F.length = size F ∧ 8 ≤ F.length

/-- The last block that is encrypted, if there is one. -/
def last (c o : List UInt8) : List UInt8 := if (o.length - 16) / 16 = 0 then c else (o.drop (16 * ((o.length - 16) / 16))).take 16

/-- `n` is more than the number of sync frames. -/
def play (D : List UInt8 → List UInt8) : Nat → List UInt8 → List UInt8 → List UInt8
  | 0, _, _ => []
  | n + 1, c, o => if o = [] then [] else FrameEncSpec.play D c (o.take (size o)) ++ play D n (last c (o.take (size o))) (o.drop (size o))

end Verif.Eac3EncSpec
