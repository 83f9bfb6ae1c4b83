import Verif.Cbc

/-!
# SAMPLE-AES of audio in MPEG-TS

Model of /repo/nginx-pckg-module/src/media/mpegts/frame_encrypt_filter.c; OpenSSL as in `Cbc.lean`. The next filter takes all that is written. Sizes have 32 bits there; the writes of a frame are
its size in all, so nothing wraps.
-/

namespace Verif.FrameEnc

open Verif.Cenc (Cipher)
open Verif.Cbc

/-- `frame_encrypt_filter_state_t`, frame_encrypt_filter.c:14-26, with what was written. -/
structure S where
  evp : Evp
  cur : Nat
  max : Nat
  out : List UInt8
deriving DecidableEq, Repr

/-- `frame_encrypt_start_frame`, frame_encrypt_filter.c:28-48; `e` is the state of the cipher after earlier frames. -/
def start (iv : List UInt8) (e : Evp) (size : Nat) : S := ⟨if size - size % 16 > 16 then Evp.init iv else e, 0, size - size % 16, []⟩

/-- Clear bytes, frame_encrypt_filter.c:77-84, 118-121. -/
def S.clear (s : S) (p : List UInt8) : S := { s with cur := s.cur + p.length, out := s.out ++ p }

/-- The loop, frame_encrypt_filter.c:89-115. More output than the buffer holds is undefined. -/
def encLoop (E : Cipher) : Nat → S → List UInt8 → Res S
  | _, s, [] => .ok s
  | 0, _, _ :: _ => .ub
  | f + 1, s, b :: t =>
    if 256 < (s.evp.update E ((b :: t).take 256)).2.length then .ub
    else encLoop E f { s with evp := (s.evp.update E ((b :: t).take 256)).1, cur := s.cur + ((b :: t).take 256).length, out := s.out ++ (s.evp.update E ((b :: t).take 256)).2 } ((b :: t).drop 256)

/-- From the end of the lead, frame_encrypt_filter.c:87-123. -/
def S.rest (E : Cipher) (s : S) (d : List UInt8) : Res S := encLoop E d.length s (d.take (s.max - s.cur)) >>= fun s' => .ok (s'.clear (d.drop (s.max - s.cur)))

/-- `frame_encrypt_write`, frame_encrypt_filter.c:60-124. -/
def S.write (E : Cipher) (s : S) (d : List UInt8) : Res S :=
  if s.cur < 16 then (s.clear (d.take (16 - s.cur))).rest E (d.drop (16 - s.cur)) else s.rest E d

def S.writes (E : Cipher) : S → List (List UInt8) → Res S
  | s, [] => .ok s
  | s, d :: l => s.write E d >>= fun s => s.writes E l

/-- A frame that comes in these parts. -/
def frame (E : Cipher) (iv : List UInt8) (e : Evp) (parts : List (List UInt8)) : Res (List UInt8) := ((start iv e parts.flatten.length).writes E parts).map S.out

end Verif.FrameEnc
