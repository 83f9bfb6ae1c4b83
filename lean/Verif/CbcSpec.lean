/-!
# Decryption of segments with AES-128

RFC 8216, 4.3.2.4: AES-128 in CBC mode with padding (PKCS #7). `D` is the block cipher backwards. Nothing of the model is used.
-/

namespace Verif.CbcSpec

def xorB (a b : List UInt8) : List UInt8 := List.zipWith (· ^^^ ·) a b

/-- `k` blocks. -/
def dec (D : List UInt8 → List UInt8) : Nat → List UInt8 → List UInt8 → List UInt8
  | 0, _, _ => []
  | k + 1, c, d => xorB (D (d.take 16)) c ++ dec D k (d.take 16) (d.drop 16)

/-- The padding is 1 to 16 bytes, each of which tells how many. -/
def unpad (l : List UInt8) : Option (List UInt8) :=
  match l.getLast? with
  | none => none
  | some b =>
    if 1 ≤ b.toNat ∧ b.toNat ≤ 16 ∧ b.toNat ≤ l.length ∧ l.drop (l.length - b.toNat) = List.replicate b.toNat b then some (l.take (l.length - b.toNat)) else none

def decode (D : List UInt8 → List UInt8) (iv s : List UInt8) : Option (List UInt8) :=
  if s.length % 16 = 0 then unpad (dec D (s.length / 16) iv s) else none

/-- `D` undoes `E` on blocks. -/
def Undoes (D E : List UInt8 → List UInt8) : Prop := ∀ b, b.length = 16 → D (E b) = b

end Verif.CbcSpec
