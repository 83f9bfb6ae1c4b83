import Verif.MtsTables
import Verif.MtsSpec
namespace Verif.Mts
open MtsSpec (crcBit bitsOf crc)

def shift (x : BitVec 32) : BitVec 32 := crcBit x false
def shift8 (x : BitVec 32) : BitVec 32 := shift (shift (shift (shift (shift (shift (shift (shift x)))))))

theorem crcBit_xor (x y : BitVec 32) (b : Bool) : crcBit (x ^^^ y) b = crcBit x b ^^^ shift y := by
  unfold shift crcBit
  rw [BitVec.msb_xor, BitVec.shiftLeft_xor_distrib]
  generalize x <<< 1 = x', y <<< 1 = y', (0x04c11db7#32) = p
  have hl : ∀ a b c : BitVec 32, a ^^^ (b ^^^ c) = b ^^^ (a ^^^ c) := fun a b c => by
    rw [← BitVec.xor_assoc, BitVec.xor_comm a b, BitVec.xor_assoc]
  have hp : ∀ a : BitVec 32, p ^^^ (a ^^^ p) = a := fun a => by rw [hl, BitVec.xor_self, BitVec.xor_zero]
  cases x.msb <;> cases y.msb <;> cases b <;> simp [BitVec.xor_assoc, hp] <;> exact BitVec.xor_comm ..

theorem shift_xor (x y : BitVec 32) : shift (x ^^^ y) = shift x ^^^ shift y := crcBit_xor x y false

theorem shift8_xor (x y : BitVec 32) : shift8 (x ^^^ y) = shift8 x ^^^ shift8 y := by
  simp only [shift8, shift_xor]

theorem shift_low {x : BitVec 32} (h : x.toNat < 2 ^ 31) : shift x = x <<< 1 := by
  have : x.msb = false := by rw [BitVec.msb_eq_false_iff_two_mul_lt]; omega
  unfold shift crcBit
  rw [this]; rfl

theorem shl_toNat {x : BitVec 32} {k : Nat} (hk : k < 32) (h : x.toNat < 2 ^ (32 - k)) : (x <<< k).toNat = x.toNat * 2 ^ k := by
  rw [BitVec.toNat_shiftLeft, Nat.shiftLeft_eq, Nat.mod_eq_of_lt]
  have : 2 ^ 32 = 2 ^ (32 - k) * 2 ^ k := by rw [← Nat.pow_add]; congr 1; omega
  rw [this]
  exact Nat.mul_lt_mul_of_pos_right h (Nat.two_pow_pos k)

theorem shift_shl {x : BitVec 32} {k : Nat} (hk : k < 8) (h : x.toNat < 2 ^ 24) : shift (x <<< k) = x <<< (k + 1) := by
  rw [shift_low, ← BitVec.shiftLeft_add]
  rw [shl_toNat (by omega) (Nat.lt_of_lt_of_le h (Nat.pow_le_pow_right (by omega) (by omega)))]
  have : 2 ^ k ≤ 2 ^ 7 := Nat.pow_le_pow_right (by omega) (by omega)
  have := Nat.mul_le_mul_left x.toNat this
  omega

theorem shift8_low {x : BitVec 32} (h : x.toNat < 2 ^ 24) : shift8 x = x <<< 8 := by
  have h0 : x = x <<< 0 := by simp
  unfold shift8
  rw [show shift x = x <<< 1 by conv => lhs; rw [h0]
                                exact shift_shl (by omega) h]
  simp only [shift_shl (show 1 < 8 by omega) h, shift_shl (show 2 < 8 by omega) h, shift_shl (show 3 < 8 by omega) h, shift_shl (show 4 < 8 by omega) h, shift_shl (show 5 < 8 by omega) h, shift_shl (show 6 < 8 by omega) h, shift_shl (show 7 < 8 by omega) h, Nat.reduceAdd]

theorem shift8_high (i : Fin 256) : shift8 (BitVec.ofNat 32 i.val <<< 24) = crcTable.getD i.val 0 := by
  revert i; decide +kernel

theorem bits_table (i : Fin 256) : (bitsOf (UInt8.ofNat i.val)).foldl crcBit 0 = shift8 (BitVec.ofNat 32 i.val <<< 24) := by
  revert i; decide +kernel

theorem split24 (x : BitVec 32) : x = (BitVec.ofNat 32 (x >>> 24).toNat <<< 24) ^^^ (x &&& 0xffffff#32) := by
  apply BitVec.eq_of_getLsbD_eq
  intro i hi
  have : ∀ j : Fin 32, (0xffffff#32).getLsbD j.val = decide (j.val < 24) := by decide
  have hm := this ⟨i, hi⟩
  simp only at hm
  rw [BitVec.getLsbD_xor, BitVec.getLsbD_and, hm, BitVec.getLsbD_shiftLeft, BitVec.ofNat_toNat]
  by_cases h : i < 24
  · simp [h]
  · simp [h, hi]
    congr 1; omega

theorem low24 (x : BitVec 32) : (x &&& 0xffffff#32).toNat < 2 ^ 24 := by
  rw [BitVec.toNat_and]
  exact Nat.lt_of_le_of_lt Nat.and_le_right (by decide)

theorem shl_low (x : BitVec 32) : (x &&& 0xffffff#32) <<< 8 = x <<< 8 := by
  apply BitVec.eq_of_getLsbD_eq
  intro i hi
  have : ∀ j : Fin 32, (0xffffff#32).getLsbD j.val = decide (j.val < 24) := by decide
  rw [BitVec.getLsbD_shiftLeft, BitVec.getLsbD_shiftLeft, BitVec.getLsbD_and]
  by_cases h : i < 8
  · simp [h]
  · have hm := this ⟨i - 8, by omega⟩
    simp only at hm
    rw [hm]
    have : i - 8 < 24 := by omega
    simp [this]

theorem shr_lt (x : BitVec 32) : (x >>> 24).toNat < 256 := by
  rw [BitVec.toNat_ushiftRight, Nat.shiftRight_eq_div_pow]
  have := x.isLt
  omega

theorem shift8_eq (x : BitVec 32) : shift8 x = (x <<< 8) ^^^ crcTable.getD (x >>> 24).toNat 0 := by
  conv => lhs; rw [split24 x]
  rw [shift8_xor, shift8_low (low24 x), shl_low, BitVec.xor_comm]
  exact congrArg _ (shift8_high ⟨_, shr_lt x⟩)

theorem bits_xor (bs : List Bool) (x y : BitVec 32) : bs.foldl crcBit (x ^^^ y) = bs.foldl crcBit x ^^^ bs.foldl (fun r _ => shift r) y := by
  induction bs generalizing x y with
  | nil => rfl
  | cons b bs ih => rw [List.foldl_cons, crcBit_xor, ih]; rfl

theorem byte_step (r : BitVec 32) (b : UInt8) :
    (bitsOf b).foldl crcBit r = (r <<< 8) ^^^ crcTable.getD (((r >>> 24).toNat ^^^ b.toNat) % 256) 0 := by
  have h1 : (bitsOf b).foldl crcBit r = (bitsOf b).foldl crcBit 0 ^^^ shift8 r := by
    have := bits_xor (bitsOf b) 0 r
    rw [show (0 : BitVec 32) ^^^ r = r by simp] at this
    exact this
  have hb : b.toNat < 256 := b.toNat_lt
  have h2 := bits_table ⟨b.toNat, hb⟩
  simp only [UInt8.ofNat_toNat] at h2
  have h3 := shift8_eq (r ^^^ (BitVec.ofNat 32 b.toNat <<< 24))
  rw [h1, h2, BitVec.xor_comm, ← shift8_xor, h3]
  have h4 : (BitVec.ofNat 32 b.toNat <<< 24) <<< 8 = 0#32 := by
    rw [← BitVec.shiftLeft_add]
    exact BitVec.shiftLeft_eq_zero (by omega)
  have hs : (r ^^^ (BitVec.ofNat 32 b.toNat <<< 24)) <<< 8 = r <<< 8 := by
    rw [BitVec.shiftLeft_xor_distrib, h4, BitVec.xor_zero]
  have ht : ((r ^^^ (BitVec.ofNat 32 b.toNat <<< 24)) >>> 24).toNat = ((r >>> 24).toNat ^^^ b.toNat) % 256 := by
    rw [BitVec.ushiftRight_xor_distrib, BitVec.toNat_xor]
    have : ((BitVec.ofNat 32 b.toNat <<< 24) >>> 24).toNat = b.toNat := by
      rw [BitVec.toNat_ushiftRight, shl_toNat (by omega) (by rw [BitVec.toNat_ofNat]; omega), BitVec.toNat_ofNat, Nat.shiftRight_eq_div_pow]
      omega
    rw [this, Nat.mod_eq_of_lt]
    exact Nat.xor_lt_two_pow (n := 8) (shr_lt r) hb
  rw [hs, ht]

theorem tableCrc_eq (data : List UInt8) : tableCrc data = crc data := by
  unfold tableCrc crc
  rw [List.foldl_flatMap]
  congr 1
  funext r b
  exact (byte_step r b).symm

end Verif.Mts
