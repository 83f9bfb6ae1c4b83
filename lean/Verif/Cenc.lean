import Verif.WriteBuf

/-!
# Common encryption of fragments (scheme cenc)

Model of /repo/nginx-pckg-module/src/media/mp4/mp4_cenc_encrypt.c: the IVs of frames, the writers of video and audio fragments, and the
auxiliary data of video. The variant for one unit in each frame is never used (ngx_http_pckg_fmp4.c:371) and not modelled. The parts of the
list of frames are one list.
-/

namespace Verif.Cenc

/-! ## Model: IVs -/

/-- `parse_be64` (read_stream.h). -/
def parseBe (bs : List UInt8) : Nat := bs.foldl (fun a b => a * 256 + b.toNat) 0

/-- The IV of the first frame of a fragment (mp4_cenc_encrypt.c:87-92); `start` is not negative, and the product fits 64 bits. -/
def firstIv (iv : List UInt8) (start scale : Nat) : Res (List UInt8) :=
  if scale = 0 then .ub else .ok (be64 ((parseBe iv + start * 60 / scale) % 2 ^ 64))

/-! ## Model: video -/

/-- The values that `cur_state` has between iterations (mp4_cenc_encrypt.c:12-17); a unit's type is read in the iteration that reads its
size. -/
inductive PS where
  | size
  | enc
  | copy
deriving Repr, DecidableEq

/-- `mp4_cenc_encrypt_video_state_t` (mp4_cenc_encrypt.h:22-70). `frames` has the sizes of the frames from `cur_frame` on, `done` says that
everything was flushed and the header was written. -/
structure V where
  frames : List Nat
  left : Nat
  iv : List UInt8
  ctr : Ctr
  wb : WB
  aux : List UInt8
  sizes : List UInt8
  subs : Nat
  ps : PS
  lenLeft : Nat
  pkt : Nat
  done : Bool
deriving Repr, DecidableEq

/-- What does not change: the cipher, the size of output buffers, `nal_packet_size_length`, the codec. -/
structure Par where
  E : Cipher
  bs : Nat
  n : Nat
  hevc : Bool

/-- `mp4_cenc_encrypt_video_get_fragment_writer` (mp4_cenc_encrypt.c:730-845), with `mp4_cenc_encrypt_video_init_track` (:148-179). -/
def V.init (P : Par) (iv : List UInt8) (frames : List Nat) : V :=
  ⟨frames, 0, iv, Ctr.setIv iv, WB.init, [], [], 0, .size, P.n, 0, false⟩

/-- The big-endian bytes of a number, as the loops over `cur_shift` write them (mp4_cenc_encrypt.c:592-595), and `write_be16`, `write_be32`. -/
def beN : Nat → Nat → List UInt8
  | 0, _ => []
  | k + 1, x => UInt8.ofNat (x / 256 ^ k) :: beN k x

/-- `mp4_cenc_encrypt_video_start_frame` and `mp4_cenc_encrypt_start_frame` (mp4_cenc_encrypt.c:124-144, 374-402). The two bytes of the
count are written at the end of the frame. -/
def V.startFrame (s : V) : Res V :=
  match s.frames with
  | [] => .err
  | f :: fs => .ok { s with
      aux := s.aux ++ s.iv ++ [0, 0], subs := 0, left := f, frames := fs, ctr := Ctr.setIv s.iv, iv := inc64 s.iv }

/-- `mp4_cenc_encrypt_video_add_subsample` (mp4_cenc_encrypt.c:405-422); the clear size has 16 bits. -/
def V.addSub (s : V) (clear enc : Nat) : V := { s with aux := s.aux ++ beN 2 clear ++ beN 4 enc, subs := (s.subs + 1) % 2 ^ 16 }

/-- Two bytes of a list replaced. -/
def patch (l : List UInt8) (i : Nat) (d : List UInt8) : List UInt8 := l.take i ++ d ++ l.drop (i + d.length)

/-- `mp4_cenc_encrypt_video_end_frame` (mp4_cenc_encrypt.c:425-441); sizes have 8 bits. -/
def V.endFrame (s : V) : V :=
  let size := 10 + s.subs * 6
  { s with sizes := s.sizes ++ [UInt8.ofNat size], aux := patch s.aux (s.aux.length - size + 8) (beN 2 s.subs) }

/-- Whether a unit is encrypted (mp4_cenc_encrypt.c:609-628): AVC types 1 to 5, HEVC types below 32. -/
def isSlice (P : Par) (b : UInt8) : Bool :=
  if P.hevc then b.toNat / 2 % 64 < 32 else 1 ≤ b.toNat % 32 ∧ b.toNat % 32 ≤ 5

/-- The write of `STATE_COPY_DATA` and `STATE_ENCRYPT_DATA` (mp4_cenc_encrypt.c:653-660). -/
def V.put (P : Par) (s : V) (d : List UInt8) : Res V :=
  if s.ps = .enc then (writeEnc P.E P.bs s.ctr s.wb d).map (fun x => { s with ctr := x.1, wb := x.2 })
  else (s.wb.write P.bs d).map (fun x => { s with wb := x })

/-- The end of an iteration: `STATE_COPY_DATA` and `STATE_ENCRYPT_DATA` (mp4_cenc_encrypt.c:648-723). -/
def V.body (P : Par) (s : V) (buf : List UInt8) : Res (V × List UInt8) := do
  let w := min buf.length s.pkt
  let s ← s.put P (buf.take w)
  let s := { s with pkt := s.pkt - w }
  let buf := buf.drop w
  if s.pkt > 0 then .ok (s, buf)
  else
    let s := { s with ps := .size, lenLeft := P.n, pkt := 0 }
    if s.left > 0 then .ok (s, buf)
    else
      let s := s.endFrame
      if s.frames ≠ [] then .ok (s, buf)
      else .ok ({ s with wb := s.wb.flush P.bs false, done := true }, buf)

/-- `STATE_NAL_TYPE` (mp4_cenc_encrypt.c:583-644): the size and the type of the unit are written. -/
def V.nalType (P : Par) (s : V) : List UInt8 → Res (V × List UInt8)
  | [] => .ub
  | b :: buf => do
    let wb ← s.wb.room P.bs (P.n + 1)
    let wb ← wb.put (beN P.n s.pkt ++ [b])
    let s := { s with wb, pkt := s.pkt - 1 }
    let s := if isSlice P b then V.addSub { s with ps := .enc } (P.n + 1) s.pkt else V.addSub { s with ps := .copy } (P.n + 1 + s.pkt) 0
    s.body P buf

/-- The loop that reads the size of a unit (mp4_cenc_encrypt.c:544-547). -/
def V.readLen (s : V) (buf : List UInt8) : V :=
  { s with lenLeft := s.lenLeft - min s.lenLeft buf.length, pkt := (buf.take s.lenLeft).foldl (fun a b => (a * 256 + b.toNat) % 2 ^ 32) s.pkt }

/-- `STATE_PACKET_SIZE` after the start of the frame (mp4_cenc_encrypt.c:544-580). -/
def V.sizeOf (P : Par) (s : V) (buf : List UInt8) : Res (V × List UInt8) :=
  let s' := s.readLen buf
  let buf := buf.drop s.lenLeft
  if buf = [] then .ok (s', [])
  else if s'.pkt = 0 then .err
  else if s'.pkt > s'.left - P.n then .err
  else
    let s := { s' with left := s'.left - (P.n + s'.pkt) }
    if s.left > 0 ∧ s.left ≤ P.n then .err
    else s.nalType P buf

/-- One iteration of `mp4_cenc_encrypt_video_write_buffer` (mp4_cenc_encrypt.c:518-724). -/
def V.iter (P : Par) (s : V) (buf : List UInt8) : Res (V × List UInt8) :=
  match s.ps with
  | .size =>
    if s.left = 0 then do
      let s ← s.startFrame
      if s.left ≤ P.n then
        if s.left = 0 then .ok ({ s with ps := .enc }, buf) else .err
      else s.sizeOf P buf
    else s.sizeOf P buf
  | _ => s.body P buf

/-- The loop; the first argument bounds the iterations. -/
def V.loop (P : Par) : Nat → V → List UInt8 → Res V
  | _, s, [] => .ok s
  | 0, _, _ => .ub
  | k + 1, s, buf => do
    let (s, buf) ← s.iter P buf
    V.loop P k s buf

/-- `mp4_cenc_encrypt_video_write_buffer` (mp4_cenc_encrypt.c:502-728). -/
def V.write (P : Par) (s : V) (buf : List UInt8) : Res V := V.loop P (3 * (buf.length + s.frames.length) + 2) s buf

/-- The fragment is written in pieces. -/
def V.writeAll (P : Par) (s : V) : List (List UInt8) → Res V
  | [] => .ok s
  | b :: bs => do
    let s ← s.write P b
    s.writeAll P bs

/-- `mp4_cenc_encrypt_video_calc_default_auxiliary_sample_size` (mp4_cenc_encrypt.c:444-465). -/
def defaultSize : List UInt8 → UInt8
  | [] => 0
  | z :: zs => if zs.all (· == z) then z else 0

/-- The content of the atom `saiz` (mp4_cenc_encrypt.c:468-490): the default size, the number of samples, and the sizes. -/
def saiz (zs : List UInt8) : UInt8 × Nat × List UInt8 := (defaultSize zs, zs.length, if defaultSize zs = 0 then zs else [])

/-! ## Model: audio -/

/-- `mp4_cenc_encrypt_state_t` (mp4_cenc_encrypt.h:22-44) for audio. -/
structure A where
  frames : List Nat
  left : Nat
  iv : List UInt8
  ctr : Ctr
  wb : WB
  done : Bool
deriving Repr, DecidableEq

/-- `mp4_cenc_encrypt_audio_get_fragment_writer` (mp4_cenc_encrypt.c:946-982). -/
def A.init (iv : List UInt8) (frames : List Nat) : A := ⟨frames, 0, iv, Ctr.setIv iv, WB.init, false⟩

/-- `mp4_cenc_encrypt_audio_write_auxiliary_data` (mp4_cenc_encrypt.c:855-871): the IVs of all frames. -/
def audioAux (iv : List UInt8) : Nat → List UInt8
  | 0 => []
  | k + 1 => iv ++ audioAux (inc64 iv) k

/-- `mp4_cenc_encrypt_start_frame` (mp4_cenc_encrypt.c:124-144). -/
def A.startFrame (s : A) : Res A :=
  match s.frames with
  | [] => .err
  | f :: fs => .ok { s with left := f, frames := fs, ctr := Ctr.setIv s.iv, iv := inc64 s.iv }

/-- A frame is started when the last one is complete (mp4_cenc_encrypt.c:905-912). -/
def A.begin (s : A) : Res A := if s.left = 0 then s.startFrame else .ok s

/-- `mp4_cenc_encrypt_audio_write_buffer` (mp4_cenc_encrypt.c:894-944); the first argument bounds the iterations. -/
def A.loop (E : Cipher) (bs : Nat) : Nat → A → List UInt8 → Res A
  | _, s, [] => .ok s
  | 0, _, _ => .ub
  | k + 1, s, buf => do
    let s ← s.begin
    let w := min buf.length s.left
    let (ctr, wb) ← writeEnc E bs s.ctr s.wb (buf.take w)
    let s := { s with ctr, wb, left := s.left - w }
    let buf := buf.drop w
    if s.left > 0 then .ok s
    else if s.frames = [] then A.loop E bs k { s with wb := s.wb.flush bs false, done := true } buf
    else A.loop E bs k s buf

def A.write (E : Cipher) (bs : Nat) (s : A) (buf : List UInt8) : Res A := A.loop E bs (buf.length + s.frames.length + 1) s buf

def A.writeAll (E : Cipher) (bs : Nat) (s : A) : List (List UInt8) → Res A
  | [] => .ok s
  | b :: l => do
    let s ← s.write E bs b
    s.writeAll E bs l

end Verif.Cenc
