import Verif.Rtmp

/-!
# RTMP to KMP: the tracks

nginx-rtmp-kmp-module/src: ngx_rtmp_kmp_track.c, and of ngx_rtmp_kmp_module.c the handler of messages. A message is `Rtmp.Msg`: its data is a chain
of buffers. The packets are written to the track in order (`KmpOut*.lean` has what happens to them there).

Simplified: the tracks are active; memory is there; `publish` and writing succeed; times of 64 bits are integers. What the codec module knows when
a message comes (`Codec`) and the clock are inputs; `ngx_kmp_out_float_to_rational` is applied before (`frameRate`). Logs, statistics and the timer
for idle connections are not modelled.
-/

namespace Verif.RtmpKmp

open Verif.Rtmp (Msg)

abbrev Bytes := List UInt8

/-- The cast to `int32_t`. -/
def i32 (x : Int) : Int := (x + 2 ^ 31) % 2 ^ 32 - 2 ^ 31

/-! ## Chains -/

/-- `while (*src == last)`, ngx_rtmp_kmp_track.c:84-92. The head of the chain is what is left of its buffer; `[]` is `NULL`. -/
def skip : Bytes → List Bytes → List Bytes
  | [], [] => []
  | [], b :: l => skip b l
  | x :: b, l => (x :: b) :: l

/-- `ngx_rtmp_kmp_copy`, ngx_rtmp_kmp_track.c:63-110. `none` is `NGX_ERROR`. -/
def copy (n : Nat) : List Bytes → Option (Bytes × List Bytes)
  | [] => none
  | b :: l => if n ≤ b.length then some (b.take n, skip (b.drop n) l) else (copy (n - b.length) l).map fun x => (b ++ x.1, x.2)

/-! ## Tracks -/

/-- What is used of `ngx_kmp_out_track_conf_t`. -/
structure Conf where
  timescale : Nat
  margin : Nat
deriving DecidableEq, Repr

/-- What is used of `ngx_rtmp_codec_ctx_t`, ngx_rtmp_codec_module.h:66-97. -/
structure Codec where
  width : Nat
  height : Nat
  frameRate : Nat × Nat
  videoRate : Nat
  videoCodec : Nat
  captions : Nat
  audioRate : Nat
  audioCodec : Nat
  sampleRate : Nat
  sampleSize : Nat
  channels : Nat
deriving DecidableEq, Repr

/-- `kmp_media_info_t`, ngx_live_kmp.h:170-176. The type is that of the track. -/
inductive Info where
  | video (codec timescale bitrate width height num denom captions : Nat)
  | audio (codec timescale bitrate channels bits rate layout : Nat)
deriving DecidableEq, Repr

/-- A packet with a frame: `kmp_frame_t`, ngx_live_kmp.h:180-185, `data_size` of its header, and the data. -/
structure KFrame where
  created : Int
  dts : Int
  flags : Nat
  pts : Int
  size : Nat
  data : Bytes
deriving DecidableEq, Repr

inductive Out where
  | info (i : Info) (extra : Bytes)
  | publish
  | frame (f : KFrame)
deriving DecidableEq, Repr

/-- `ngx_rtmp_kmp_track_ctx_t`, ngx_rtmp_kmp_track.c:30-39, with `media_info` and `extra_data` of the track, and what was written. `samples` is never
negative. -/
structure Track where
  video : Bool
  ts : Int := 0
  last : Int := 0
  base : Int := 0
  samples : Nat := 0
  synced : Bool := false
  infoSent : Bool := false
  published : Bool := false
  info : Option Info := none
  extra : Bytes := []
  out : List Out := []
deriving DecidableEq, Repr

/-- The media info, ngx_rtmp_kmp_track.c:160-204. -/
def mediaInfo (video : Bool) (c : Conf) (k : Codec) : Info :=
  if video then
    .video (if k.videoCodec = 0x31637668 ∨ k.videoCodec = 0x31766568 then 8 else k.videoCodec % 2 ^ 32) c.timescale (k.videoRate * 1000 % 2 ^ 32)
      (k.width % 2 ^ 16) (k.height % 2 ^ 16) (k.frameRate.1 % 2 ^ 32) (k.frameRate.2 % 2 ^ 32) (k.captions % 2 ^ 32)
  else
    .audio ((1000 + k.audioCodec) % 2 ^ 32) c.timescale (k.audioRate * 1000 % 2 ^ 32) (k.channels % 2 ^ 16) (k.sampleSize * 8 % 2 ^ 16)
      (k.sampleRate % 2 ^ 32) (if k.channels = 1 then 4 else 3)

/-- `ngx_rtmp_kmp_track_sync_audio`, ngx_rtmp_kmp_track.c:217-256: the new time. A track without a media info has no codec. -/
def syncAudio (c : Conf) (t : Track) (dts : Int) : Track × Int :=
  match t.info with
  | some (.audio codec _ _ _ _ rate _) =>
    if codec ≠ 1010 then (t, dts)
    else if rate = 0 then (t, dts)
    else
      let margin : Int := (c.margin * c.timescale / 1000 % 2 ^ 32 : Nat)
      let est := t.base + (t.samples * c.timescale / rate : Nat)
      if est - margin ≤ dts ∧ dts ≤ est + margin then ({ t with samples := t.samples + 1024 }, est)
      else ({ t with base := dts, samples := 1024 }, dts)
  | _ => (t, dts)

/-- What is read of the start of a message: `data_size`, `flags`, `pts_delay`, `*sequence_header`, and the rest of the chain. -/
structure Head where
  size : Nat
  flags : Nat := 0
  pts : Int := 0
  config : Bool := false
  rest : List Bytes
deriving DecidableEq, Repr

/-- The composition time, ngx_rtmp_kmp_track.c:359-382, if there is one. `data_size` is a `uint32_t`. -/
def readDelay (scale : Nat) (has : Bool) (h : Head) : Res Head :=
  if has then
    match copy 3 h.rest with
    | some ([a, b, c], rest) =>
      let n := a.toNat <<< 16 ||| b.toNat <<< 8 ||| c.toNat
      let d : Int := if n &&& 0x800000 ≠ 0 then (n : Int) - 2 ^ 24 else n
      .ok { h with size := (h.size + 2 ^ 32 - 3) % 2 ^ 32, pts := i32 (d * scale), rest }
    | _ => .err
  else .ok h

/-- ngx_rtmp_kmp_track.c:274-417 without the times. -/
def readHead (c : Conf) (m : Msg) : Res Head :=
  match copy 1 m.data with
  | some ([k], rest) =>
    let scale := c.timescale / 1000
    let size := (m.mlen + 2 ^ 32 - 1) % 2 ^ 32
    if m.type = 9 then
      if k &&& 0x80 = 0 then
        if k &&& 0x0f ≠ 7 then .ok { size, rest }
        else
          match copy 1 rest with
          | some ([p], rest) =>
            readDelay scale true
              { size := (size + 2 ^ 32 - 1) % 2 ^ 32, config := p == 0, flags := if k >>> 4 = 1 then 1 else 0, rest }
          | _ => .err
      else
        match copy 4 rest with
        | some (fourcc, rest) =>
          let hevc := fourcc == [0x68, 0x76, 0x63, 0x31] || fourcc == [0x68, 0x65, 0x76, 0x31]
          let k := k &&& 0x7f
          readDelay scale (hevc && (k &&& 0x0f) == 1)
            { size := (size + 2 ^ 32 - 4) % 2 ^ 32, config := (k &&& 0x0f) == 0, flags := if k >>> 4 = 1 then 1 else 0, rest }
        | none => .err
    else if m.type = 8 then
      if k >>> 4 ≠ 10 then .ok { size, rest }
      else
        match copy 1 rest with
        | some ([p], rest) => .ok { size := (size + 2 ^ 32 - 1) % 2 ^ 32, config := p == 0, rest }
        | _ => .err
    else .ok { size, rest }
  | _ => .err

/-- The time of a frame, ngx_rtmp_kmp_track.c:422-439. The subtraction of two `int32_t` may overflow. -/
def frameTime (c : Conf) (t : Track) (m : Msg) : Res (Track × Int) :=
  let now : Res Track :=
    if t.synced then
      let d := i32 m.timestamp - t.last
      if d < -2 ^ 31 ∨ 2 ^ 31 ≤ d then .ub else .ok { t with ts := t.ts + d, last := i32 m.timestamp }
    else .ok { t with synced := true, ts := m.timestamp, last := i32 m.timestamp }
  now >>= fun t =>
    let dts := t.ts * (c.timescale / 1000 : Nat)
    .ok (if m.type = 8 then syncAudio c t dts else (t, dts))

/-- `ngx_rtmp_kmp_track_av`, ngx_rtmp_kmp_track.c:458-544, with `ngx_rtmp_kmp_track_init_frame`, 259-442, `ngx_rtmp_kmp_track_set_extra_data`, 113-139, and
`ngx_rtmp_kmp_track_send_media_info`, 142-214. -/
def trackAv (c : Conf) (t : Track) (m : Msg) (k : Option Codec) (created : Int) : Res Track :=
  if m.data = [] then .ub
  else
    readHead c m >>= fun h =>
      if h.config then
        if h.size = 0 then .ok { t with extra := [], infoSent := false }
        else
          match copy h.size h.rest with
          | some (extra, _) => .ok { t with extra, infoSent := false }
          | none => .err
      else if h.size = 0 then .ok t
      else
        frameTime c t m >>= fun x =>
          let t := x.1
          let told : Res Track :=
            if t.infoSent then .ok t
            else
              match k with
              | none => .err
              | some k => .ok { t with infoSent := true, info := some (mediaInfo t.video c k), out := t.out ++ [.info (mediaInfo t.video c k) t.extra] }
          told >>= fun t =>
            let t := if t.published then t else { t with published := true, out := t.out ++ [.publish] }
            if h.rest = [] then .ub
            else .ok { t with out := t.out ++ [.frame ⟨created, x.2, h.flags, h.pts, h.size, h.rest.flatten⟩] }

/-! ## Streams -/

/-- A message, with what the codec module knows then, and the time. -/
structure Input where
  msg : Msg
  codec : Option Codec
  created : Int
deriving DecidableEq, Repr

/-- The tracks of a stream: `ngx_rtmp_kmp_stream_ctx_t`. -/
structure Strm where
  video : Option Track := none
  audio : Option Track := none
deriving DecidableEq, Repr

/-- `ngx_rtmp_kmp_av`, ngx_rtmp_kmp_module.c:880-951, with `ngx_rtmp_kmp_track_create`, ngx_rtmp_kmp_track.c:547-622. -/
def av (c : Conf) (s : Strm) (x : Input) : Res Strm :=
  if x.msg.type = 9 then (trackAv c (s.video.getD { video := true }) x.msg x.codec x.created).map fun t => { s with video := some t }
  else if x.msg.type = 8 then (trackAv c (s.audio.getD { video := false }) x.msg x.codec x.created).map fun t => { s with audio := some t }
  else .ok s

def avs (c : Conf) (s : Strm) : List Input → Res Strm
  | [] => .ok s
  | x :: l => av c s x >>= fun s => avs c s l

end Verif.RtmpKmp
