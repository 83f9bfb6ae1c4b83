import Verif.Basic

/-!
# AES in counter mode

Model of /repo/nginx-pckg-module/src/media/mp4/mp4_aes_ctr.c. The block cipher (OpenSSL `EVP_EncryptUpdate` with `EVP_aes_128_ecb`) is any
function on blocks; calls of OpenSSL do not fail.
-/

namespace Verif.Cenc

/-- A block cipher with its key. Only the length of its output matters here. -/
structure Cipher where
  enc : List UInt8 → List UInt8
  len : ∀ b, b.length = 16 → (enc b).length = 16

/-! ## Model -/

/-- The loop of `mp4_aes_ctr_increment_be64` (mp4_aes_ctr.c:61-74); the list is in the order in which the loop visits the bytes. -/
def incRev : List UInt8 → List UInt8
  | [] => []
  | b :: bs => if b + 1 ≠ 0 then (b + 1) :: bs else (b + 1) :: incRev bs

/-- `mp4_aes_ctr_increment_be64` (mp4_aes_ctr.c:61-74) on 8 bytes. -/
def inc64 (c : List UInt8) : List UInt8 := (incRev c.reverse).reverse

/-- `mp4_aes_ctr_state_t` (mp4_aes_ctr.h:13-20): the first block of `counter`, and the bytes from `encrypted_pos` to `encrypted_end`. -/
structure Ctr where
  counter : List UInt8
  ks : List UInt8
deriving Repr, DecidableEq

/-- `mp4_aes_ctr_set_iv` (mp4_aes_ctr.c:50-59). -/
def Ctr.setIv (iv : List UInt8) : Ctr := ⟨iv ++ List.replicate 8 0, []⟩

/-- The next counter block (mp4_aes_ctr.c:103-105, 127). -/
def nextBlock (c : List UInt8) : List UInt8 := c.take 8 ++ inc64 (c.drop 8)

/-- The blocks of `counter` from the first one (mp4_aes_ctr.c:99-106). -/
def counters (c : List UInt8) : Nat → List (List UInt8)
  | 0 => []
  | n + 1 => c :: counters (nextBlock c) n

/-- The first counter after `n` blocks (mp4_aes_ctr.c:122-127): the last block, plus one. -/
def advance (c : List UInt8) : Nat → List UInt8
  | 0 => c
  | n + 1 => advance (nextBlock c) n

/-- `aes_round_up_to_block_exact` (aes_defs.h:19), limited to the size of `counter` (mp4_aes_ctr.c:92-97), in blocks. -/
def refillBlocks (n : Nat) : Nat := min ((n + 15) / 16) 64

/-- The part of an iteration that makes more of the key stream (mp4_aes_ctr.c:90-133). -/
def Ctr.refill (E : Cipher) (s : Ctr) (n : Nat) : Ctr :=
  if s.ks = [] then ⟨advance s.counter (refillBlocks n), (counters s.counter (refillBlocks n)).flatMap E.enc⟩ else s

/-- `mp4_aes_ctr_process` (mp4_aes_ctr.c:76-154): the state and what is written to `dest`. The loop ends because each iteration takes a byte;
when the cipher returned nothing the loop would not end. -/
def process (E : Cipher) : Nat → Ctr → List UInt8 → Res (Ctr × List UInt8)
  | _, s, [] => .ok (s, [])
  | 0, _, _ => .ub
  | k + 1, s, src =>
    let s := s.refill E src.length
    let w := min s.ks.length src.length
    do
    let (s', out) ← process E k { s with ks := s.ks.drop w } (src.drop w)
    .ok (s', List.zipWith (· ^^^ ·) (src.take w) (s.ks.take w) ++ out)

def Ctr.process (E : Cipher) (s : Ctr) (src : List UInt8) : Res (Ctr × List UInt8) := Cenc.process E src.length s src

/-! ## Specification: the key stream -/

/-- The 8 bytes of a number, the most significant first. -/
def be64 (n : Nat) : List UInt8 := [n / 2 ^ 56, n / 2 ^ 48, n / 2 ^ 40, n / 2 ^ 32, n / 2 ^ 24, n / 2 ^ 16, n / 2 ^ 8, n].map (fun x => UInt8.ofNat x)

/-- Byte `j` of the key stream of an IV: the counter of the block is the IV and then the number of the block. -/
def stream (E : Cipher) (iv : List UInt8) (j : Nat) : UInt8 := (E.enc (iv ++ be64 (j / 16))).getD (j % 16) 0

/-- Data with the key stream from position `p` on added. -/
def xorAt (ks : Nat → UInt8) : Nat → List UInt8 → List UInt8
  | _, [] => []
  | p, d :: ds => (d ^^^ ks p) :: xorAt ks (p + 1) ds

theorem xorAt_length (ks : Nat → UInt8) : ∀ (ds : List UInt8) (p : Nat), (xorAt ks p ds).length = ds.length
  | [], _ => rfl
  | _ :: ds, p => by simp [xorAt, xorAt_length ks ds (p + 1)]

theorem xorAt_append (ks : Nat → UInt8) : ∀ (a b : List UInt8) (p : Nat), xorAt ks p (a ++ b) = xorAt ks p a ++ xorAt ks (p + a.length) b
  | [], _, _ => rfl
  | _ :: a, b, p => by
    simp only [xorAt, List.cons_append, xorAt_append ks a b (p + 1), List.length_cons]
    rw [show p + 1 + a.length = p + (a.length + 1) by omega]

theorem xorAt_self (ks : Nat → UInt8) : ∀ (ds : List UInt8) (p : Nat), xorAt ks p (xorAt ks p ds) = ds
  | [], _ => rfl
  | d :: ds, p => by
    simp only [xorAt, xorAt_self ks ds (p + 1), UInt8.xor_assoc, UInt8.xor_self, UInt8.xor_zero]

/-! ## Counters -/

theorem be64_length (n : Nat) : (be64 n).length = 8 := rfl

theorem u8_succ_ne (x : Nat) : UInt8.ofNat x + 1 ≠ 0 ↔ x % 256 ≠ 255 := by
  rw [Ne, ← UInt8.toNat_inj, UInt8.toNat_add, UInt8.toNat_ofNat']
  simp only [UInt8.reduceToNat]
  omega

theorem u8_succ (x : Nat) : UInt8.ofNat x + 1 = UInt8.ofNat (x + 1) := by
  rw [← UInt8.toNat_inj, UInt8.toNat_add, UInt8.toNat_ofNat', UInt8.toNat_ofNat']
  simp only [UInt8.reduceToNat]
  omega

theorem u8_eq {x y : Nat} (h : x % 256 = y % 256) : UInt8.ofNat x = UInt8.ofNat y := by
  rw [← UInt8.toNat_inj, UInt8.toNat_ofNat', UInt8.toNat_ofNat']
  exact h

/-- Little-endian bytes of a number. -/
def leb : Nat → Nat → List UInt8
  | 0, _ => []
  | k + 1, n => UInt8.ofNat n :: leb k (n / 256)

theorem incRev_leb : ∀ k n, incRev (leb k n) = leb k (n + 1)
  | 0, _ => rfl
  | k + 1, n => by
    simp only [leb, incRev]
    by_cases h : n % 256 = 255
    · rw [if_neg (by rw [u8_succ_ne]; omega), incRev_leb k, u8_succ]
      congr 2
      omega
    · rw [if_pos ((u8_succ_ne n).2 h), u8_succ, show (n + 1) / 256 = n / 256 by omega]

theorem be64_leb (n : Nat) : be64 n = (leb 8 n).reverse := by
  simp only [be64, leb, List.map_cons, List.map_nil, List.reverse_cons, List.reverse_nil, List.nil_append, List.cons_append, Nat.div_div_eq_div_mul]

theorem inc64_be64 (n : Nat) : inc64 (be64 n) = be64 (n + 1) := by
  rw [be64_leb, inc64, List.reverse_reverse, incRev_leb, ← be64_leb]

theorem nextBlock_eq {iv : List UInt8} (h : iv.length = 8) (n : Nat) : nextBlock (iv ++ be64 n) = iv ++ be64 (n + 1) := by
  unfold nextBlock
  rw [← h, List.take_left, List.drop_left, inc64_be64]

theorem advance_eq {iv : List UInt8} (h : iv.length = 8) : ∀ k n, advance (iv ++ be64 n) k = iv ++ be64 (n + k)
  | 0, _ => rfl
  | k + 1, n => by rw [advance, nextBlock_eq h, advance_eq h k, show n + 1 + k = n + (k + 1) by omega]

theorem be64_zero : be64 0 = List.replicate 8 0 := by decide

/-- The key stream from one position up to another one. -/
def seg (ks : Nat → UInt8) (p n : Nat) : List UInt8 := (List.range' p n).map ks

theorem seg_length (ks : Nat → UInt8) (p n : Nat) : (seg ks p n).length = n := by simp [seg]

theorem seg_append (ks : Nat → UInt8) (p a b : Nat) : seg ks p (a + b) = seg ks p a ++ seg ks (p + a) b := by
  unfold seg
  rw [← List.map_append, List.range'_append_1]

theorem seg_drop (ks : Nat → UInt8) (p n k : Nat) (h : k ≤ n) : (seg ks p n).drop k = seg ks (p + k) (n - k) := by
  rw [show n = k + (n - k) by omega, seg_append, List.drop_left' (seg_length ks p k)]
  congr 1
  omega

theorem zip_seg (ks : Nat → UInt8) : ∀ (ds : List UInt8) (p n : Nat), ds.length = n → List.zipWith (· ^^^ ·) ds (seg ks p n) = xorAt ks p ds
  | [], p, n, h => by simp [xorAt]
  | d :: ds, p, n, h => by
    rw [← h, List.length_cons, show ds.length + 1 = 1 + ds.length by omega, seg_append]
    simp only [xorAt, show seg ks p 1 = [ks p] from rfl, List.singleton_append, List.zipWith_cons_cons]
    rw [zip_seg ks ds (p + 1) _ rfl]

theorem block_seg (E : Cipher) {iv : List UInt8} (h : iv.length = 8) (n : Nat) : E.enc (iv ++ be64 n) = seg (stream E iv) (16 * n) 16 := by
  have hl : (E.enc (iv ++ be64 n)).length = 16 := E.len _ (by simp [h, be64_length])
  apply List.ext_getElem
  · rw [hl, seg_length]
  · intro i h1 h2
    have h3 : (seg (stream E iv) (16 * n) 16)[i] = stream E iv (16 * n + i) := by simp [seg]
    rw [h3]
    unfold stream
    rw [show (16 * n + i) / 16 = n by omega, show (16 * n + i) % 16 = i by omega]
    rw [List.getD_eq_getElem?_getD, List.getElem?_eq_getElem h1, Option.getD_some]

theorem counters_seg (E : Cipher) {iv : List UInt8} (h : iv.length = 8) : ∀ k n, (counters (iv ++ be64 n) k).flatMap E.enc = seg (stream E iv) (16 * n) (16 * k)
  | 0, _ => rfl
  | k + 1, n => by
    rw [counters, List.flatMap_cons, nextBlock_eq h, counters_seg E h k, block_seg E h, show 16 * (n + 1) = 16 * n + 16 by omega, ← seg_append,
      show 16 + 16 * k = 16 * (k + 1) by omega]

/-! ## The state -/

/-- The state after `p` bytes for an IV. -/
structure Ctr.At (E : Cipher) (iv : List UInt8) (p : Nat) (s : Ctr) : Prop where
  iv8 : iv.length = 8
  at_ : ∃ n, p ≤ 16 * n ∧ s.counter = iv ++ be64 n ∧ s.ks = seg (stream E iv) p (16 * n - p)

theorem Ctr.setIv_at (E : Cipher) {iv : List UInt8} (h : iv.length = 8) : (Ctr.setIv iv).At E iv 0 :=
  ⟨h, 0, by omega, by rw [be64_zero]; rfl, rfl⟩

theorem Ctr.refill_at {E : Cipher} {iv : List UInt8} {p : Nat} {s : Ctr} (h : s.At E iv p) {n : Nat} (hn : 0 < n) :
    (s.refill E n).At E iv p ∧ (s.refill E n).ks ≠ [] := by
  obtain ⟨h8, m, h1, h2, h3⟩ := h
  unfold Ctr.refill
  split
  · rename_i he
    have hm : 16 * m - p = 0 := by
      rw [h3] at he
      have := congrArg List.length he
      rwa [seg_length] at this
    have hr : 0 < refillBlocks n := by unfold refillBlocks; omega
    refine ⟨⟨h8, m + refillBlocks n, by omega, by rw [h2, advance_eq h8], ?_⟩, ?_⟩
    · dsimp only
      rw [h2, counters_seg E h8]
      congr 1 <;> omega
    · dsimp only
      rw [h2, counters_seg E h8]
      intro e
      have := congrArg List.length e
      rw [seg_length] at this
      simp at this
      omega
  · rename_i he
    exact ⟨⟨h8, m, h1, h2, h3⟩, he⟩

theorem process_spec (E : Cipher) (iv : List UInt8) : ∀ (k : Nat) (src : List UInt8) (p : Nat) (s : Ctr), s.At E iv p → src.length ≤ k →
    ∃ s', process E k s src = .ok (s', xorAt (stream E iv) p src) ∧ s'.At E iv (p + src.length)
  | _, [], p, s, h, _ => ⟨s, by unfold process; rfl, h⟩
  | 0, d :: ds, _, _, _, hk => by simp at hk
  | k + 1, d :: ds, p, s, h, hk => by
    obtain ⟨r1, r2⟩ := Ctr.refill_at h (n := (d :: ds).length) (by simp)
    rw [process]
    case x_3 => simp
    generalize (s.refill E (d :: ds).length) = s1 at r1 r2 ⊢
    dsimp only
    obtain ⟨h8, m, h1, h2, h3⟩ := r1
    have hl : s1.ks.length = 16 * m - p := by rw [h3, seg_length]
    have hpos : 0 < s1.ks.length := List.length_pos_iff.2 r2
    generalize hw : min s1.ks.length (d :: ds).length = w
    have hw1 : w ≤ s1.ks.length := by omega
    have hw2 : w ≤ (d :: ds).length := by omega
    have hw3 : 0 < w := by have : 0 < (d :: ds).length := by simp
                           omega
    obtain ⟨s2, q1, q2⟩ := process_spec E iv k ((d :: ds).drop w) (p + w) { s1 with ks := s1.ks.drop w }
      ⟨h8, m, by omega, h2, by dsimp only; rw [h3, seg_drop _ _ _ _ (by omega)]; congr 1; omega⟩ (by rw [List.length_drop]; omega)
    rw [q1]
    refine ⟨s2, ?_, ?_⟩
    · simp only [Res.bind_ok]
      congr 2
      have ht : s1.ks.take w = seg (stream E iv) p w := by
        rw [h3, show 16 * m - p = w + (16 * m - p - w) by omega, seg_append, List.take_left' (seg_length _ _ _)]
      have hlt : ((d :: ds).take w).length = w := by rw [List.length_take]; omega
      rw [ht, zip_seg _ _ _ _ hlt]
      conv => rhs; rw [← List.take_append_drop w (d :: ds)]
      rw [xorAt_append, hlt]
    · rw [List.length_drop] at q2
      rwa [show p + w + ((d :: ds).length - w) = p + (d :: ds).length by omega] at q2

/-- However the data of a frame is cut into calls, the key stream of the IV is added to it, and continues with the next call. -/
theorem Ctr.process_exact {E : Cipher} {iv : List UInt8} {p : Nat} {s : Ctr} (h : s.At E iv p) (src : List UInt8) :
    ∃ s', s.process E src = .ok (s', xorAt (stream E iv) p src) ∧ s'.At E iv (p + src.length) :=
  process_spec E iv _ src p s h (Nat.le_refl _)

end Verif.Cenc
