import Verif.Cbc

/-!
# SAMPLE-AES of H.264 in MPEG-TS

Model of /repo/nginx-pckg-module/src/media/mpegts/sample_aes_avc_filter.c; OpenSSL as in `Cbc.lean`. The next filter takes all that is written.
-/

namespace Verif.SampleAes

open Verif.Cenc (Cipher)
open Verif.Cbc

/-- `sample_aes_avc_write_emulation_prevention`, sample_aes_avc_filter.c:93-144: what is written, and the zeros at the end. -/
def ep : Nat → List UInt8 → List UInt8 × Nat
  | z, [] => ([], z)
  | z, b :: t =>
    if z < 2 then (b :: (ep (if b = 0 then z + 1 else 0) t).1, (ep (if b = 0 then z + 1 else 0) t).2)
    else if b.toNat / 4 = 0 then (3 :: b :: (ep (if b = 0 then 1 else 0) t).1, (ep (if b = 0 then 1 else 0) t).2)
    else (b :: (ep (if b = 0 then 1 else 0) t).1, (ep (if b = 0 then 1 else 0) t).2)

/-- `sample_aes_avc_filter_state_t`, sample_aes_avc_filter.c:16-30, with what was written. -/
structure S where
  encrypt : Bool
  cur : Nat
  next : Nat
  max : Nat
  zr : Nat
  evp : Evp
  out : List UInt8
deriving DecidableEq, Repr

/-- `sample_aes_avc_start_nal_unit`, sample_aes_avc_filter.c:146-175; the type is the low five bits of the first byte (mp4_to_annexb_filter.c:218). -/
def start (iv u : List UInt8) : S :=
  if ((u.headD 0).toNat % 32 ≠ 1 ∧ (u.headD 0).toNat % 32 ≠ 5) ∨ u.length ≤ 48 then ⟨false, 0, 0, 0, 0, Evp.init iv, []⟩ else ⟨true, 0, 32, u.length - 16, 0, Evp.init iv, []⟩

/-- A clear part, sample_aes_avc_filter.c:201-208. -/
def S.clear (s : S) (p : List UInt8) : S := { s with cur := s.cur + p.length, zr := (ep s.zr p).2, out := s.out ++ (ep s.zr p).1 }

/-- The next block, sample_aes_avc_filter.c:233-238. -/
def S.after (s : S) : Nat := if (s.next + 160) % 2 ^ 32 ≥ s.max then 2 ^ 32 - 1 else (s.next + 160) % 2 ^ 32

/-- A part of a block, sample_aes_avc_filter.c:211-238. More output than a block is undefined. The code writes 16 bytes; the output of OpenSSL here is empty or of 16 bytes (`block_inv`). -/
def S.block (E : Cipher) (s : S) (p : List UInt8) : Res S :=
  if 16 < (s.evp.update E p).2.length then .ub
  else if (s.evp.update E p).2 = [] then .ok { s with cur := s.cur + p.length, evp := (s.evp.update E p).1 }
  else .ok { s with cur := s.cur + p.length, evp := (s.evp.update E p).1, zr := (ep s.zr (s.evp.update E p).2).2, out := s.out ++ (ep s.zr (s.evp.update E p).2).1, next := s.after }

/-- The loop, sample_aes_avc_filter.c:195-239. -/
def loop (E : Cipher) : Nat → S → List UInt8 → Res S
  | _, s, [] => .ok s
  | 0, _, _ :: _ => .ub
  | f + 1, s, b :: t =>
    if s.cur < s.next then loop E f (s.clear ((b :: t).take (s.next - s.cur))) ((b :: t).drop (s.next - s.cur))
    else s.block E ((b :: t).take (s.next + 16 - s.cur)) >>= fun s' => loop E f s' ((b :: t).drop (s.next + 16 - s.cur))

/-- `sample_aes_avc_filter_write_nal_body`, sample_aes_avc_filter.c:177-242. -/
def S.write (E : Cipher) (s : S) (d : List UInt8) : Res S := if s.encrypt then loop E d.length s d else .ok { s with out := s.out ++ d }

def S.writes (E : Cipher) : S → List (List UInt8) → Res S
  | s, [] => .ok s
  | s, d :: l => s.write E d >>= fun s => s.writes E l

/-- A unit that comes in these parts, mp4_to_annexb_filter.c:217-279: the type, and each part to the body writer. -/
def unit (E : Cipher) (iv : List UInt8) (parts : List (List UInt8)) : Res (List UInt8) := ((start iv parts.flatten).writes E parts).map S.out

end Verif.SampleAes
