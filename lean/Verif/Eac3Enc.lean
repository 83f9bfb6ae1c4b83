import Verif.FrameEnc

/-!
# SAMPLE-AES of E-AC-3 in MPEG-TS

Model of /repo/nginx-pckg-module/src/media/mpegts/eac3_encrypt_filter.c, in front of `FrameEnc.lean`.
-/

namespace Verif.Eac3Enc

open Verif.Cenc (Cipher)
open Verif.Cbc Verif.FrameEnc

/-- `eac3_encrypt_filter_state_t`, eac3_encrypt_filter.c:12-23, and the state of the next filter. `hdr` is the part of the header that was filled. -/
structure X where
  hdr : List UInt8
  hl : Nat
  left : Nat
  sync : Nat
  f : S
deriving DecidableEq, Repr

/-- `eac3_encrypt_start_frame`, eac3_encrypt_filter.c:25-41, with the next filter. -/
def start (iv : List UInt8) (e : Evp) (size : Nat) : Res X :=
  if size < 7 then .err else .ok ⟨[], 7, size, 0, FrameEnc.start iv e size⟩

/-- The size in a header, eac3_encrypt_filter.c:74-75. -/
def syncSize (h : List UInt8) : Nat := (((h.getD 2 0).toNat * 256 + (h.getD 3 0).toNat) % 2048 + 1) * 2

/-- `frame_encrypt_start_sub_frame`, frame_encrypt_filter.c:50-57. -/
def sub (s : S) (size : Nat) : S := { s with cur := 0, max := size - size % 16 }

/-- A full header, eac3_encrypt_filter.c:65-103. -/
def X.header (E : Cipher) (x : X) : Res X :=
  if x.hdr.getD 0 0 ≠ 0x0b ∨ x.hdr.getD 1 0 ≠ 0x77 then .err
  else if syncSize x.hdr < 7 ∨ syncSize x.hdr > x.left then .err
  else if x.left - syncSize x.hdr > 0 ∧ x.left - syncSize x.hdr < 7 then .err
  else (sub x.f (syncSize x.hdr)).write E x.hdr >>= fun f => .ok { x with left := x.left - syncSize x.hdr, sync := syncSize x.hdr - 7, f := f }

/-- The write of the body, eac3_encrypt_filter.c:109-117; `d` is all that is left of the buffer. -/
def X.body (E : Cipher) (x : X) (d : List UInt8) : Res X := x.f.write E (d.take x.sync) >>= fun f => .ok { x with f := f, sync := x.sync - (d.take x.sync).length }

/-- `eac3_encrypt_write`, eac3_encrypt_filter.c:44-134. -/
def X.loop (E : Cipher) : Nat → X → List UInt8 → Res X
  | 0, _, _ => .ub
  | f + 1, x, d =>
    if d.length < x.hl then .ok { x with hdr := x.hdr ++ d, hl := x.hl - d.length }
    else (if x.hl > 0 then X.header E { x with hdr := x.hdr ++ d.take x.hl, hl := 0 } else .ok x) >>= fun y =>
      y.body E (d.drop x.hl) >>= fun z =>
        if z.sync > 0 then .ok z
        else if (d.drop x.hl).length ≤ y.sync then .ok { z with hdr := [], hl := 7 }
        else X.loop E f { z with hdr := [], hl := 7 } ((d.drop x.hl).drop y.sync)

def X.writes (E : Cipher) : X → List (List UInt8) → Res X
  | x, [] => .ok x
  | x, d :: l => X.loop E (d.length + 1) x d >>= fun x => x.writes E l

/-- A frame that comes in these parts. -/
def frame (E : Cipher) (iv : List UInt8) (e : Evp) (parts : List (List UInt8)) : Res (List UInt8) := start iv e parts.flatten.length >>= fun x => (x.writes E parts).map fun x => x.f.out

end Verif.Eac3Enc
