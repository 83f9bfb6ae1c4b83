import Verif.Cbc
import Verif.Cenc

/-!
# Encryption of samples (scheme cbcs)

Model of /repo/nginx-pckg-module/src/media/mp4/mp4_cbcs_encrypt.c for segments of one track of video or audio. Each frame is written with one call, as
ngx_http_pckg_core_module.c:1026-1049 and mp4_muxer.c:1255-1262 do it, so that the writer never waits for the rest of a unit. What the parsers of slices find
is a parameter. Allocations and the callback succeed.
-/

namespace Verif.Cbcs

open Verif.Cenc (Cipher WB parseBe beN)
open Verif.Cbc (Evp)

/-- `mp4_cbcs_encrypt_state_t`: the cipher with its key, the IV; and the size of output buffers. -/
structure Par where
  E : Cipher
  iv : List UInt8
  bs : Nat

/-- `slice_parser_t`, mp4_cbcs_encrypt.c:44-66: the size of unit sizes, that of the heads of units; which units are slices, and the size of their headers with the head of the unit. -/
structure Codec where
  n : Nat
  hdr : Nat
  isSlice : UInt8 → Res Bool
  head : List UInt8 → Res Nat

/-- `mp4_cbcs_encrypt_write_encrypted`, mp4_cbcs_encrypt.c:170-206. -/
def writeEnc (P : Par) (e : Evp) (wb : WB) (d : List UInt8) : Res (Evp × WB) :=
  wb.room P.bs ((d.length + 15) / 16 * 16) >>= fun wb => wb.put (e.update P.E d).2 >>= fun wb => .ok ((e.update P.E d).1, wb)

/-- `next_block_size_left` after a block, mp4_cbcs_encrypt.c:545-553 and 586-594. -/
def nextLeft (n : Nat) : Nat := if n ≥ 176 then n - 160 else 0

/-- `STATE_PACKET_ENCRYPT`, mp4_cbcs_encrypt.c:560-595: `d` is what is left of the unit. -/
def encPart (P : Par) (e : Evp) (wb : WB) (d : List UInt8) (next : Nat) : Res (Evp × WB × List UInt8 × Nat) :=
  if d.length > 0 ∧ d.length ≤ next then
    if next < 16 ∨ d.length < next - 16 then .ub
    else (writeEnc P e wb (d.take (d.length - (next - 16)))).map fun x => (x.1, x.2, d.drop (d.length - (next - 16)), nextLeft next)
  else .ok (e, wb, d, next)

/-- `STATE_PACKET_ENCRYPT` and `STATE_PACKET_COPY` until the end of the unit, mp4_cbcs_encrypt.c:560-620. Sizes below zero do not happen. -/
def encLoop (P : Par) : Nat → Evp → WB → List UInt8 → Nat → Res WB
  | 0, _, _, _, _ => .ub
  | k + 1, e, wb, d, next =>
    encPart P e wb d next >>= fun x =>
      if x.2.2.1.length < x.2.2.2 then .ub
      else
        x.2.1.write P.bs (x.2.2.1.take (x.2.2.1.length - x.2.2.2)) >>= fun wb =>
          if x.2.2.2 = 0 then .ok wb else encLoop P k x.1 wb (x.2.2.1.drop (x.2.2.1.length - x.2.2.2)) x.2.2.2

/-- `STATE_PACKET_COPY` of a unit without encrypted data, when the loop comes to it (mp4_cbcs_encrypt.c:350, 598-620): nothing is done at the end of the buffer, not even the end of the unit. -/
def copyPart (P : Par) (wb : WB) (d : List UInt8) (more : Bool) : Res (WB × Bool) :=
  if d.length = 0 ∧ more = false then .ok (wb, true) else (wb.write P.bs d).map fun wb => (wb, false)

/-- The slice header and what follows, mp4_cbcs_encrypt.c:465-620: `d` is the unit without its first byte, `h` the size of the header without it, `b` the number of bytes in the header buffer without it. -/
def slicePart (P : Par) (wb : WB) (d : List UInt8) (h b : Nat) (more : Bool) : Res (WB × Bool) :=
  if d.length < h + 16 then wb.write P.bs (d.take b) >>= fun wb => copyPart P wb (d.drop b) more
  else
    wb.write P.bs (d.take h) >>= fun wb =>
      writeEnc P (Evp.init P.iv) wb ((d.drop h).take (min 16 (b - h))) >>= fun x =>
        (if 16 ≤ b - h then x.2.write P.bs ((d.take b).drop (h + 16)) else .ok x.2) >>= fun wb =>
          (encLoop P (d.length + 1) x.1 wb (d.drop b) (if 16 ≤ b - h then nextLeft (d.length - h) else d.length - h)).map fun wb => (wb, false)

/-- `STATE_NAL_TYPE`, mp4_cbcs_encrypt.c:420-463, and the rest of the unit. -/
def unit (P : Par) (C : Codec) (wb : WB) (t : UInt8) (d : List UInt8) (more : Bool) : Res (WB × Bool) :=
  wb.room P.bs (C.n + 1) >>= fun wb =>
    wb.put (beN C.n (d.length + 1) ++ [t]) >>= fun wb =>
      C.isSlice t >>= fun s =>
        if s = false ∨ d.length < 17 then copyPart P wb d more
        else C.head ((t :: d).take 128) >>= fun h => slicePart P wb d (h - 1) (min 128 (d.length + 1) - 1) more

/-- `STATE_PACKET_SIZE`, mp4_cbcs_encrypt.c:354-418, for all units of a frame; whether the end of the last unit was not seen. -/
def units (P : Par) (C : Codec) : Nat → WB → List UInt8 → Res (WB × Bool)
  | 0, _, _ => .ub
  | k + 1, wb, d =>
    if d.length < C.n + C.hdr then .err
    else if parseBe (d.take C.n) = 0 then .err
    else if d.length - C.n < parseBe (d.take C.n) then .err
    else if 0 < d.length - C.n - parseBe (d.take C.n) ∧ d.length - C.n - parseBe (d.take C.n) < C.n + C.hdr then .err
    else
      match (d.drop C.n).take (parseBe (d.take C.n)) with
      | [] => .ub
      | t :: u =>
        unit P C wb t u (decide (0 < d.length - C.n - parseBe (d.take C.n))) >>= fun x =>
          if d.length - C.n - parseBe (d.take C.n) = 0 then .ok x else units P C k x.1 (d.drop (C.n + parseBe (d.take C.n)))

/-- `mp4_cbcs_encrypt_audio_write_buffer`, mp4_cbcs_encrypt.c:710-790, for one frame. -/
def audio (P : Par) (wb : WB) (d : List UInt8) : Res (WB × Bool) :=
  (if d.length > d.length % 16 then (writeEnc P (Evp.init P.iv) wb (d.take (d.length - d.length % 16))).map fun x => x.2 else .ok wb) >>= fun wb =>
    (wb.write P.bs (d.drop (d.length - d.length % 16))).map fun wb => (wb, false)

/-- The state between frames: the sizes of the frames to come, and whether the end of the last unit was not seen. -/
structure St where
  wb : WB
  sizes : List Nat
  stuck : Bool
deriving DecidableEq, Repr

/-- `mp4_cbcs_encrypt_move_to_next_frame`, mp4_cbcs_encrypt.c:250-276. -/
def skipEmpty (l : List Nat) : List Nat := l.dropWhile (· == 0)

/-- The end of a frame, mp4_cbcs_encrypt.c:622-632 and 782-786, with `mp4_cbcs_encrypt_flush`, :209-220, for one track. -/
def endFrame (P : Par) (wb : WB) (sizes : List Nat) : St :=
  match skipEmpty sizes with
  | [] => ⟨wb.flush P.bs false, [], false⟩
  | l => ⟨wb, l, false⟩

/-- The data of a frame; `C` is there for video. -/
def work (P : Par) (C : Option Codec) (wb : WB) (d : List UInt8) : Res (WB × Bool) :=
  match C with
  | none => audio P wb d
  | some C => units P C d.length wb d

/-- The end of a unit that was not seen comes first in the next call, mp4_cbcs_encrypt.c:350 and 598-632. -/
def ready (P : Par) (s : St) : St := if s.stuck then endFrame P s.wb s.sizes else s

/-- A call with the data of a frame; other sizes than that of the frame are not modelled. -/
def call (P : Par) (C : Option Codec) (s : St) (d : List UInt8) : Res St :=
  if d.length = 0 then .ok s
  else
    match (ready P s).sizes with
    | [] => .err
    | z :: zs =>
      if z ≠ d.length then .ub
      else work P C (ready P s).wb d >>= fun x => .ok (if x.2 then ⟨x.1, zs, true⟩ else endFrame P x.1 zs)

def calls (P : Par) (C : Option Codec) : St → List (List UInt8) → Res St
  | s, [] => .ok s
  | s, d :: l => call P C s d >>= fun s => calls P C s l

/-- What is sent of a segment: mp4_cbcs_encrypt.c:877-971, and the frames. -/
def serve (P : Par) (C : Option Codec) (frames : List (List UInt8)) : Res (List UInt8) :=
  (calls P C ⟨WB.init, skipEmpty (frames.map List.length), false⟩ frames).map fun s => s.wb.sent

end Verif.Cbcs
