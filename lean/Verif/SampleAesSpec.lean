import Verif.CbcSpec
import Verif.RbspSpec

/-!
# Players of SAMPLE-AES

Apple, MPEG-2 Stream Encryption Format for HTTP Live Streaming. `D` is the block cipher backwards. Of the model nothing is used.
-/

namespace Verif.SampleAesSpec

open Verif.CbcSpec Verif.RbspSpec

/-- While more than 16 bytes remain: a block, and up to 144 bytes that are clear. -/
def blocks (D : List UInt8 → List UInt8) : Nat → List UInt8 → List UInt8 → List UInt8
  | 0, _, d => d
  | f + 1, c, d => if 16 < d.length then xorB (D (d.take 16)) c ++ ((d.drop 16).take 144 ++ blocks D f (d.take 16) (d.drop 160)) else d

/-- A slice (type 1 or 5) of more than 48 bytes is encrypted: bytes against emulation of start codes are removed, and 32 bytes are clear. -/
def play (D : List UInt8 → List UInt8) (iv o : List UInt8) : List UInt8 :=
  if ((o.headD 0).toNat % 32 = 1 ∨ (o.headD 0).toNat % 32 = 5) ∧ 48 < o.length then (unesc 0 o).take 32 ++ blocks D (unesc 0 o).length iv ((unesc 0 o).drop 32) else o

/-- There is no start code, nor what may be taken for one. -/
def NoStart (o : List UInt8) : Prop := ∀ x : UInt8, x.toNat ≤ 2 → ¬ [0, 0, x] <:+: o

end Verif.SampleAesSpec
