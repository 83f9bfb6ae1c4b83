import Verif.Cenc
import Verif.Fmp4

/-!
# Encrypted segments

Model of nginx-pckg-module/src/media/mp4/mp4_dash_encrypt.c and of the atoms of mp4_cenc_encrypt.c: the whole response for a track with the
scheme `cenc`. The writers are those of `Verif.Cenc`, the header is that of `Verif.Fmp4`. Encryption is used for requests of one track only
(ngx_http_pckg_fmp4.c:359-365).
-/

namespace Verif.CencFile

open Fmp4 (Bytes Seg Track be32 atom name u64)
open Cenc (Cipher Par V A)

/-- The vector of the first frame, mp4_cenc_encrypt.c:87-92. Undefined if the product does not fit into `int64_t`, or if the timescale is 0. -/
def firstIv (iv : Bytes) (t : Track) : Res Bytes :=
  if t.timescale = 0 ∨ t.start * 60 < -2 ^ 63 ∨ 2 ^ 63 ≤ t.start * 60 then .ub
  else .ok (Cenc.be64 (u64 (Cenc.parseBe iv + (t.start * 60).tdiv t.timescale)))

/-- The atom `saiz`, mp4_cenc_encrypt.c:482-490 and 878-882, from its content. -/
def saizAtom (z : UInt8 × Nat × Bytes) : Bytes :=
  atom (17 + z.2.2.length) (name 's' 'a' 'i' 'z') ++ be32 0 ++ [z.1] ++ be32 z.2.1 ++ z.2.2

/-- The atom `saio`, mp4_cenc_encrypt.c:492-496 and 884-888. -/
def saioAtom (off : Nat) : Bytes := atom 20 (name 's' 'a' 'i' 'o') ++ be32 0 ++ be32 1 ++ be32 off

/-- The atom `senc`, mp4_dash_encrypt.c:25-29 and 79-83. -/
def sencAtom (flags count : Nat) (aux : Bytes) : Bytes :=
  atom (16 + aux.length) (name 's' 'e' 'n' 'c') ++ be32 flags ++ be32 count ++ aux

/-- `mp4_dash_encrypt_audio_write_encryption_atoms`, mp4_dash_encrypt.c:69-86, with `mp4_cenc_encrypt_audio_write_saiz_saio`,
mp4_cenc_encrypt.c:872-891. -/
def audioAtoms (iv : Bytes) (n moof : Nat) : Bytes := saizAtom (8, n, []) ++ saioAtom (moof - 8 * n) ++ sencAtom 0 n (Cenc.audioAux iv n)

/-- `mp4_dash_encrypt_audio_build_fragment_header`, mp4_dash_encrypt.c:89-129. -/
def audioHeader (g : Seg) (iv : Bytes) (n : Nat) : Res Bytes := Fmp4.header g 0 (17 + 20 + 16 + 8 * n) (audioAtoms iv n)

/-- The calls of the writer by the muxer, mp4_muxer.c:1255-1262 (`reuse_buffers` is set, mp4_dash_encrypt.c:153): one for each frame. -/
def calls (mem : Nat → UInt8) (g : Seg) : Res (List Bytes) :=
  (Fmp4.data true false g).map fun d => d.map fun w => Fmp4.bytesAt mem w.2.1 w.2.2

/-- The response for a track of audio: the header, and what the writer has sent. -/
def audioResponse (E : Cipher) (cap : Nat) (iv : Bytes) (mem : Nat → UInt8) (g : Seg) : Res Bytes :=
  match g.tracks with
  | [t] => do
    let iv ← firstIv iv t
    let h ← audioHeader g iv t.frames.length
    let cs ← calls mem g
    let s ← (A.init iv (t.frames.map (·.size))).writeAll E cap cs
    .ok (h ++ s.wb.sent)
  | _ => .err

/-- `mp4_dash_encrypt_video_write_encryption_atoms`, mp4_dash_encrypt.c:15-32, for `n` frames. -/
def videoAtoms (aux sizes : Bytes) (n moof : Nat) : Bytes := saizAtom (Cenc.saiz sizes) ++ saioAtom (moof - aux.length) ++ sencAtom 2 n aux

/-- `mp4_dash_encrypt_video_build_fragment_header`, mp4_dash_encrypt.c:35-64, with `mp4_cenc_encrypt_video_prepare_saiz_saio` (mp4_cenc_encrypt.c:468-477) for
the size of `saiz`. -/
def videoHeader (g : Seg) (aux sizes : Bytes) (n : Nat) : Res Bytes :=
  Fmp4.header g 0 (17 + (Cenc.saiz sizes).2.2.length + 20 + 16 + aux.length) (videoAtoms aux sizes n)

/-- The response for a track of video. Without frames the header is all that is written (mp4_cenc_encrypt.c:765-784). Otherwise it is made
when the last frame ends (mp4_cenc_encrypt.c:704-721), and is put before the data; if that does not happen, only the data that was sent is
there. -/
def videoResponse (P : Par) (iv : Bytes) (mem : Nat → UInt8) (g : Seg) : Res Bytes :=
  match g.tracks with
  | [t] => do
    let iv ← firstIv iv t
    if t.frames = [] then videoHeader g [] [] 0
    else if P.n < 1 ∨ 4 < P.n then .err
    else do
      let cs ← calls mem g
      let v ← (V.init P iv (t.frames.map (·.size))).writeAll P cs
      if v.done then do
        let h ← videoHeader g v.aux v.sizes t.frames.length
        .ok (h ++ v.wb.sent)
      else .ok v.wb.sent
  | _ => .err

end Verif.CencFile
