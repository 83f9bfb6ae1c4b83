import Verif.Ctr

/-!
# AES in CBC mode and segments that are encrypted as a whole

Model of /repo/nginx-pckg-module/src/media/aes_cbc_encrypt.c and of the way ngx_http_pckg_fmp4.c, mp4_muxer.c and ngx_http_pckg_core_module.c use it.
OpenSSL (`EVP_aes_128_cbc` with padding) is modelled by its documentation; its calls do not fail. To encrypt more after `EVP_EncryptFinal_ex` is not allowed
by it, and counts as undefined. Allocations and the callback succeed.
-/

namespace Verif.Cbc

open Verif.Cenc (Cipher)

def xorB (a b : List UInt8) : List UInt8 := List.zipWith (· ^^^ ·) a b

/-- `k` blocks in CBC mode: the output and the last block of it. -/
def cbc (E : Cipher) : Nat → List UInt8 → List UInt8 → List UInt8 × List UInt8
  | 0, c, _ => ([], c)
  | k + 1, c, d => (E.enc (xorB (d.take 16) c) ++ (cbc E k (E.enc (xorB (d.take 16) c)) (d.drop 16)).1, (cbc E k (E.enc (xorB (d.take 16) c)) (d.drop 16)).2)

/-- `EVP_CIPHER_CTX`: the block before, and bytes that do not fill a block. -/
structure Evp where
  chain : List UInt8
  pend : List UInt8
deriving DecidableEq, Repr

/-- `EVP_EncryptInit_ex`. -/
def Evp.init (iv : List UInt8) : Evp := ⟨iv, []⟩

/-- `EVP_EncryptUpdate`: all full blocks. -/
def Evp.update (E : Cipher) (e : Evp) (d : List UInt8) : Evp × List UInt8 :=
  (⟨(cbc E ((e.pend ++ d).length / 16) e.chain (e.pend ++ d)).2, (e.pend ++ d).drop (16 * ((e.pend ++ d).length / 16))⟩, (cbc E ((e.pend ++ d).length / 16) e.chain (e.pend ++ d)).1)

/-- `EVP_EncryptFinal_ex`: the last block, with padding. -/
def Evp.final (E : Cipher) (e : Evp) : List UInt8 := (cbc E 1 e.chain (e.pend ++ List.replicate (16 - e.pend.length) (UInt8.ofNat (16 - e.pend.length)))).1

/-- `aes_cbc_encrypt_context_t`, with what the callback got. -/
structure W where
  evp : Evp
  sent : List UInt8 := []
  done : Bool := false
deriving DecidableEq, Repr

/-- `aes_round_up_to_block`, aes_defs.h:17-18. -/
def roundUp (n : Nat) : Nat := (n + 16) / 16 * 16

/-- `aes_cbc_encrypt_write`, aes_cbc_encrypt.c:131-184, with `aes_cbc_encrypt_flush`, :111-129, and no buffer pool; the size has 32 bits. It is undefined to write past the end of the output. -/
def W.write (E : Cipher) (w : W) (b : List UInt8) : Res W :=
  if w.done then .ub
  else if b.length = 0 then .ok { w with sent := w.sent ++ w.evp.final E, done := true }
  else if roundUp b.length % 2 ^ 32 < (w.evp.update E b).2.length then .ub
  else .ok { w with evp := (w.evp.update E b).1, sent := w.sent ++ (w.evp.update E b).2 }

def W.writes (E : Cipher) : W → List (List UInt8) → Res W
  | w, [] => .ok w
  | w, b :: l => w.write E b >>= fun w => w.writes E l

/-- What is written of a segment: the head if it is not empty (ngx_http_pckg_core_module.c:1497-1505), each frame (mp4_muxer.c:1255-1262, ngx_http_pckg_core_module.c:1028-1049), and at the end
nothing (ngx_http_pckg_core_module.c:1206). -/
def calls (head : List UInt8) (frames : List (List UInt8)) : List (List UInt8) := (if head.length = 0 then [] else [head]) ++ frames ++ [[]]

/-- The body of a segment with AES-128, and its announced size (ngx_http_pckg_fmp4.c:402-407), which is that of the segment without encryption rounded up. -/
def serve (E : Cipher) (iv head : List UInt8) (frames : List (List UInt8)) : Res (List UInt8 × Nat) :=
  (W.writes E ⟨Evp.init iv, [], false⟩ (calls head frames)).map fun w => (w.sent, roundUp (head ++ frames.flatten).length)

/-- `aes_cbc_encrypt` with `flush`, aes_cbc_encrypt.c:67-108, for init segments; the output has room for 16 bytes more than the size rounded up. -/
def whole (E : Cipher) (iv d : List UInt8) : Res (List UInt8) :=
  if roundUp d.length + 16 < (((Evp.init iv).update E d).2 ++ ((Evp.init iv).update E d).1.final E).length then .ub
  else .ok (((Evp.init iv).update E d).2 ++ ((Evp.init iv).update E d).1.final E)

end Verif.Cbc
