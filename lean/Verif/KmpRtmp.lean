import Verif.Basic

/-!
# KMP to RTMP: the encoder

nginx-kmp-rtmp-module/src: ngx_kmp_rtmp_amf.c, ngx_kmp_rtmp_encoder.c, and of ngx_kmp_rtmp_stream.c the functions that use the encoder. Numbers are
natural numbers; where the code has fewer bits the result is cut. Memory is little endian.

Simplified: a message that is made in memory is made in a buffer that has the size that was computed before, with any contents (`Env.fresh`);
`ngx_kmp_rtmp_upstream_get_buf` and `ngx_kmp_rtmp_upstream_write` succeed and put the bytes behind those that were written before. The conversion
of numbers to `double` (`Env.dbl`, `Rates`) and the text of a date (`Env.clock`) are parameters. Logs are not modelled.
-/

namespace Verif.KmpRtmp

abbrev Bytes := List UInt8

/-- ASCII text. -/
def txt (s : String) : Bytes := s.toList.map fun c => UInt8.ofNat c.toNat

/-- `ngx_kmp_rtmp_amf_write_be16`, ngx_kmp_rtmp_amf.h:16-19. -/
def out16 (n : Nat) : Bytes := [UInt8.ofNat (n >>> 8), UInt8.ofNat n]

/-- `ngx_kmp_rtmp_amf_write_be24`, ngx_kmp_rtmp_amf.h:21-25. -/
def out24 (n : Nat) : Bytes := [UInt8.ofNat (n >>> 16), UInt8.ofNat (n >>> 8), UInt8.ofNat n]

/-- `ngx_kmp_rtmp_amf_write_be32`, ngx_kmp_rtmp_amf.h:27-32. -/
def out32 (n : Nat) : Bytes := [UInt8.ofNat (n >>> 24), UInt8.ofNat (n >>> 16), UInt8.ofNat (n >>> 8), UInt8.ofNat n]

/-- `ngx_copy` of a `uint32_t`. -/
def le32 (n : Nat) : Bytes := [UInt8.ofNat n, UInt8.ofNat (n >>> 8), UInt8.ofNat (n >>> 16), UInt8.ofNat (n >>> 24)]

/-! ## Memory -/

/-- Bytes are written at `p`. Not in the code: `*p++ =`, `ngx_copy`, `ngx_memcpy`, `ngx_memmove`. -/
def store (mem : Bytes) (p : Nat) (bs : Bytes) : Res Bytes :=
  if p + bs.length ≤ mem.length then .ok (mem.take p ++ bs ++ mem.drop (p + bs.length)) else .ub

/-- Bytes are read at `p`. -/
def load (mem : Bytes) (p n : Nat) : Res Bytes := if p + n ≤ mem.length then .ok ((mem.drop p).take n) else .ub

/-! ## AMF -/

/-- The values of the templates that are not objects, ngx_kmp_rtmp_amf.c:31-190. A number is the eight bytes of the `double`, last byte of the
memory first. -/
inductive Leaf where
  | null
  | bool (b : Bool)
  | num (b : Bytes)
  | str (s : Bytes)
deriving DecidableEq, Repr

/-- `field->handler (field, NULL, ...)`: `ngx_kmp_rtmp_amf_null`, `_stereo`, `_uint16`, `_uint32`, `_rational`, `_bitrate`, `_string` and
`_fixed_string`, ngx_kmp_rtmp_amf.c:67-190. -/
def Leaf.size : Leaf → Nat
  | .null => 1
  | .bool _ => 1 + 1
  | .num _ => 1 + 8
  | .str s => 1 + 2 + s.length

/-- `field->handler (field, p, ...)` of the same functions, with `ngx_kmp_rtmp_amf_write_bool`, `_number` and `_string`,
ngx_kmp_rtmp_amf.c:31-64. -/
def Leaf.out : Leaf → Bytes
  | .null => [5]
  | .bool b => [1, if b then 1 else 0]
  | .num b => 0 :: b
  | .str s => 2 :: (out16 s.length ++ s)

/-- A field of an object: `ngx_kmp_rtmp_amf_field_t`, ngx_kmp_rtmp_amf.h:41-47. `mask` is `type`. -/
structure Key where
  mask : Nat
  key : Bytes
  val : Leaf
deriving DecidableEq, Repr

/-- A field of a message. The templates have no objects in objects. -/
inductive Fld where
  | leaf (l : Leaf)
  | obj (fs : List Key)
  | mixed (fs : List Key)
deriving DecidableEq, Repr

/-- `NGX_KMP_RTMP_AMF_DEFAULT`, ngx_kmp_rtmp_amf.h:9. -/
def always : Nat := 0xffffffff

/-- The fields that are used: `cur->type & type`. -/
def used (ty : Nat) (fs : List Key) : List Key := fs.filter fun k => (k.mask &&& ty) != 0

/-- `ngx_kmp_rtmp_amf_fields_get_size`, ngx_kmp_rtmp_amf.c:193-211. -/
def fieldsSize (ty : Nat) (fs : List Key) : Nat := ((used ty fs).map fun k => 2 + k.key.length + k.val.size).sum

/-- `ngx_kmp_rtmp_amf_fields_write`, ngx_kmp_rtmp_amf.c:214-234, with `ngx_kmp_rtmp_amf_write_key`, ngx_kmp_rtmp_amf.c:23-28. -/
def fieldsOut (ty : Nat) (fs : List Key) : Bytes := ((used ty fs).map fun k => out16 k.key.length ++ k.key ++ k.val.out).flatten

/-- `ngx_kmp_rtmp_amf_object` and `ngx_kmp_rtmp_amf_mixed_array` with `p == NULL`, ngx_kmp_rtmp_amf.c:237-288. -/
def Fld.size (ty : Nat) : Fld → Nat
  | .leaf l => l.size
  | .obj fs => 1 + fieldsSize ty fs + 2 + 1
  | .mixed fs => 1 + 4 + fieldsSize ty fs + 2 + 1

/-- The same with `p != NULL`. -/
def Fld.out (ty : Nat) : Fld → Bytes
  | .leaf l => l.out
  | .obj fs => 3 :: (fieldsOut ty fs ++ out16 0 ++ [9])
  | .mixed fs => 8 :: (out32 (used ty fs).length ++ fieldsOut ty fs ++ out16 0 ++ [9])

/-- `ngx_kmp_rtmp_amf` with `p == NULL`, ngx_kmp_rtmp_amf.c:291-308. The fields of messages are always used, unless `type` is zero. -/
def amfSize (ty : Nat) (fs : List Fld) : Nat := if always &&& ty = 0 then 0 else (fs.map (Fld.size ty)).sum

/-- `ngx_kmp_rtmp_amf` with `p != NULL`, ngx_kmp_rtmp_amf.c:310-320. -/
def amfOut (ty : Nat) (fs : List Fld) : Bytes := if always &&& ty = 0 then [] else (fs.map (Fld.out ty)).flatten

/-! ## Chunks -/

/-- `ngx_kmp_rtmp_header_t`, ngx_kmp_rtmp_encoder.c:67-74. -/
structure Hdr where
  fmt : Nat := 0
  csid : Nat
  ts : Nat := 0
  mlen : Nat := 0
  type : Nat
  msid : Nat := 0
deriving DecidableEq, Repr

/-- `ngx_kmp_rtmp_header_size`, ngx_kmp_rtmp_encoder.c:89-94. -/
def hdrSize (fmt : Nat) : Nat := if fmt = 0 then 12 else if fmt = 1 then 8 else if fmt = 2 then 4 else 1

/-- `ngx_kmp_rtmp_encoder_write_header`, ngx_kmp_rtmp_encoder.c:492-510. `csid` is a `u_char`. -/
def writeHeader (h : Hdr) : Bytes :=
  UInt8.ofNat (h.fmt <<< 6 ||| h.csid) ::
    if h.fmt ≤ 2 then
      out24 h.ts ++ if h.fmt ≤ 1 then
        out24 h.mlen ++ [UInt8.ofNat h.type] ++ if h.fmt = 0 then le32 h.msid else []
      else []
    else []

/-- `ngx_kmp_rtmp_chunk_count`, ngx_kmp_rtmp_encoder.c:63-64. -/
def chunkCount (mlen size : Nat) : Nat := (mlen + size - 1) / size

/-- `0xc0 | csid`. -/
def again (csid : Nat) : UInt8 := UInt8.ofNat (0xc0 ||| csid)

/-- The loop of `ngx_kmp_rtmp_encoder_add_chunk_headers`, ngx_kmp_rtmp_encoder.c:528-537. The body starts at `p`; `cur` is `cur_chunk_size`. -/
def spread (p size csid : Nat) : Nat → Nat → Bytes → Res Bytes
  | 0, _, mem => .ok mem
  | i + 1, cur, mem =>
    load mem (p + (i + 1) * size) cur >>= fun d =>
      store mem (p + (i + 1) * size + (i + 1)) d >>= fun mem =>
        store mem (p + (i + 1) * size + (i + 1) - 1) [again csid] >>= fun mem => spread p size csid i size mem

/-- `ngx_kmp_rtmp_encoder_add_chunk_headers`, ngx_kmp_rtmp_encoder.c:513-540. An empty body is not allowed. -/
def addChunks (mem : Bytes) (p mlen size csid : Nat) : Res (Bytes × Nat) :=
  if chunkCount mlen size = 0 then .ub
  else spread p size csid (chunkCount mlen size - 1) (mlen - (chunkCount mlen size - 1) * size) mem >>= fun mem =>
    .ok (mem, p + mlen + (chunkCount mlen size - 1))

/-- `ngx_kmp_rtmp_encoder_amf_get_size`, ngx_kmp_rtmp_encoder.c:543-554. -/
def amfGetSize (ty : Nat) (fs : List Fld) (fmt size : Nat) : Nat := hdrSize fmt + amfSize ty fs + (chunkCount (amfSize ty fs) size - 1)

/-- `ngx_kmp_rtmp_encoder_amf_write`, ngx_kmp_rtmp_encoder.c:557-575. -/
def amfWrite (h : Hdr) (ty : Nat) (fs : List Fld) (size : Nat) (x : Bytes × Nat) : Res (Bytes × Nat) :=
  store x.1 (x.2 + hdrSize h.fmt) (amfOut ty fs) >>= fun mem =>
    store mem x.2 (writeHeader { h with mlen := (amfOut ty fs).length % 2 ^ 32 }) >>= fun mem =>
      addChunks mem (x.2 + hdrSize h.fmt) ((amfOut ty fs).length % 2 ^ 32) size h.csid

/-- A message whose body is there already: `ngx_kmp_rtmp_encoder_avc_sequence_write`, `_ext_sequence_write`, `_aac_sequence_write`,
ngx_kmp_rtmp_encoder.c:875-897, 935-957, 985-1007. `tag` is the start of the body and `extra` the rest. -/
def seqWrite (h : Hdr) (tag extra : Bytes) (size : Nat) (x : Bytes × Nat) : Res (Bytes × Nat) :=
  store x.1 x.2 (writeHeader { h with mlen := (tag.length + extra.length) % 2 ^ 32 }) >>= fun mem =>
    store mem (x.2 + (writeHeader h).length) tag >>= fun mem =>
      store mem (x.2 + (writeHeader h).length + tag.length) extra >>= fun mem =>
        addChunks mem (x.2 + (writeHeader h).length) ((tag.length + extra.length) % 2 ^ 32) size h.csid

/-- Their sizes, ngx_kmp_rtmp_encoder.c:861-872, 921-932, 971-982. -/
def seqGetSize (tag extra size : Nat) : Nat := 12 + (tag + extra) + (chunkCount (tag + extra) size - 1)

/-! ## Messages of a connection -/

structure Env where
  dbl : Nat → Bytes
  clock : Int → Bytes × Bytes
  fresh : Nat → Bytes

/-- `ngx_kmp_rtmp_connect_t` without the transaction, ngx_kmp_rtmp_encoder.h:33-40. -/
structure Connect where
  app : Bytes
  flashVer : Bytes
  swfUrl : Bytes
  tcUrl : Bytes
  pageUrl : Bytes
deriving DecidableEq, Repr

/-- The tables of fields, ngx_kmp_rtmp_encoder.c:122-179. -/
def amfConnect (e : Env) (c : Connect) (tx : Nat) : List Fld :=
  [.leaf (.str (txt "connect")), .leaf (.num (e.dbl tx)),
    .obj [⟨always, txt "app", .str c.app⟩, ⟨always, txt "flashVer", .str c.flashVer⟩, ⟨always, txt "swfUrl", .str c.swfUrl⟩,
      ⟨always, txt "tcUrl", .str c.tcUrl⟩, ⟨always, txt "pageUrl", .str c.pageUrl⟩]]

/-- ngx_kmp_rtmp_encoder.c:266-293, 182-209 and 212-239: `name` is `releaseStream`, `FCPublish` or `FCUnpublish`. -/
def amfNamed (e : Env) (cmd : String) (tx : Nat) (name : Bytes) : List Fld :=
  [.leaf (.str (txt cmd)), .leaf (.num (e.dbl tx)), .leaf .null, .leaf (.str name)]

/-- ngx_kmp_rtmp_encoder.c:242-263. -/
def amfCreate (e : Env) (tx : Nat) : List Fld := [.leaf (.str (txt "createStream")), .leaf (.num (e.dbl tx)), .leaf .null]

/-- ngx_kmp_rtmp_encoder.c:296-323. -/
def amfDelete (e : Env) (tx msid : Nat) : List Fld :=
  [.leaf (.str (txt "deleteStream")), .leaf (.num (e.dbl tx)), .leaf .null, .leaf (.num (e.dbl msid))]

/-- ngx_kmp_rtmp_encoder.c:326-359. -/
def amfPublish (e : Env) (tx : Nat) (name : Bytes) : List Fld :=
  [.leaf (.str (txt "publish")), .leaf (.num (e.dbl tx)), .leaf .null, .leaf (.str name), .leaf (.str (txt "live"))]

/-- The numbers of `kmp_media_info_t` that are divided before they are converted. -/
structure Rates where
  bitrate : Bytes
  frames : Bytes := []
deriving DecidableEq, Repr

/-- What is used of `kmp_media_info_t` for a track of video, and the extra data. -/
structure Video where
  codec : Nat
  width : Nat
  height : Nat
  rates : Rates
  extra : Bytes
deriving DecidableEq, Repr

/-- The same for audio. -/
structure Audio where
  codec : Nat
  sampleRate : Nat
  bits : Nat
  channels : Nat
  rates : Rates
  extra : Bytes
deriving DecidableEq, Repr

/-- `ngx_kmp_rtmp_metadata_t`: a track that is not there has the codec `KMP_CODEC_INVALID`. -/
structure Meta where
  video : Option Video
  audio : Option Audio
deriving DecidableEq, Repr

/-- `ngx_kmp_rtmp_encoder_metadata_get_type`, ngx_kmp_rtmp_encoder.c:740-756. -/
def metaType (m : Meta) : Nat := (if m.video.isSome then 1 else 0) ||| (if m.audio.isSome then 2 else 0)

/-- ngx_kmp_rtmp_encoder.c:362-453. -/
def amfMeta (e : Env) (m : Meta) : List Fld :=
  let v := m.video.getD ⟨0, 0, 0, ⟨e.dbl 0, e.dbl 0⟩, []⟩
  let a := m.audio.getD ⟨0, 0, 0, 0, ⟨e.dbl 0, e.dbl 0⟩, []⟩
  [.leaf (.str (txt "@setDataFrame")), .leaf (.str (txt "@onMetaData")),
    .mixed [⟨1, txt "width", .num (e.dbl v.width)⟩, ⟨1, txt "height", .num (e.dbl v.height)⟩, ⟨1, txt "videodatarate", .num v.rates.bitrate⟩,
      ⟨1, txt "framerate", .num v.rates.frames⟩, ⟨1, txt "videocodecid", .num (e.dbl v.codec)⟩, ⟨2, txt "audiodatarate", .num a.rates.bitrate⟩,
      ⟨2, txt "audiosamplerate", .num (e.dbl a.sampleRate)⟩, ⟨2, txt "audiosamplesize", .num (e.dbl a.bits)⟩,
      ⟨2, txt "stereo", .bool (decide (2 ≤ a.channels))⟩, ⟨2, txt "audiocodecid", .num (e.dbl (a.codec - 1000))⟩]]

/-- ngx_kmp_rtmp_encoder.c:456-489. -/
def amfOnfi (x : Bytes × Bytes) : List Fld :=
  [.leaf (.str (txt "onFI")), .mixed [⟨always, txt "sd", .str x.1⟩, ⟨always, txt "st", .str x.2⟩]]

/-- `ngx_kmp_rtmp_stream_ctx_t`, ngx_kmp_rtmp_encoder.h:49-57. -/
structure Ctx where
  chunk : Nat
  msid : Nat
  csid : Nat
  lastTs : Nat := 0
  sound : Nat := 0
  wrote : Bool := false
deriving DecidableEq, Repr

/-- `ngx_kmp_rtmp_frame_t`, ngx_kmp_rtmp_encoder.h:60-68. `data` are the parts of the chain. -/
structure Frame where
  created : Int
  dts : Int
  pts : Int
  flags : Nat
  size : Nat
  data : List Bytes
deriving DecidableEq, Repr

/-- The cast of a number to `uint32_t`. -/
def u32 (x : Int) : Nat := (x % 2 ^ 32).toNat

/-- `ngx_kmp_rtmp_encoder_update_media_info`, ngx_kmp_rtmp_encoder.c:787-841: `sound_info` for a track of audio. -/
def soundInfo (codec rate bits channels : Nat) : Nat :=
  (((codec - 1000) <<< 4) ||| ((if rate ≤ 8000 then 0 else if rate ≤ 16000 then 1 else if rate ≤ 32000 then 2 else 3) <<< 2) |||
    ((if bits = 8 then 0 else 1) <<< 1) ||| (if channels = 1 then 0 else 1)) % 256

/-- `ngx_kmp_rtmp_encoder_avc_header_write`, ngx_kmp_rtmp_encoder.c:844-858. -/
def avcHeader (packet : Nat) (key : Bool) (pts : Nat) : Bytes :=
  [UInt8.ofNat ((if key then 1 else 2) <<< 4 ||| 7), UInt8.ofNat packet] ++ out24 pts

/-- `ngx_kmp_rtmp_encoder_ext_header_write`, ngx_kmp_rtmp_encoder.c:900-918. -/
def extHeader (packet : Nat) (key : Bool) (fourcc pts : Nat) : Bytes :=
  UInt8.ofNat (0x80 ||| (if key then 1 else 2) <<< 4 ||| packet) :: (le32 fourcc ++ if packet = 1 then out24 pts else [])

/-- `NGX_RTMP_EXT_FOURCC_HVC1`, ngx_kmp_rtmp_encoder.h:17. -/
def hvc1 : Nat := 0x31637668

/-- `header_size`, `h.type` and the header of a frame, ngx_kmp_rtmp_encoder.c:1075-1112. -/
def frameTag (sc : Ctx) (f : Frame) (codec : Nat) : Option (Nat × Nat × Bytes) :=
  if codec = 7 then some (5, 9, avcHeader 1 (f.flags &&& 1 != 0) (u32 f.pts))
  else if codec = 8 then some (8, 9, extHeader 1 (f.flags &&& 1 != 0) hvc1 (u32 f.pts))
  else if codec = 1002 then some (1, 8, [UInt8.ofNat sc.sound])
  else if codec = 1010 then some (2, 8, [UInt8.ofNat sc.sound, 1])
  else none

/-- The loop of `ngx_kmp_rtmp_encoder_frame_write`, ngx_kmp_rtmp_encoder.c:1131-1170. `fuel` is more than the number of rounds. -/
def frameLoop (csid chunk : Nat) : Nat → Nat → Bytes → List Bytes → Res Bytes
  | 0, _, _, _ => .ub
  | fuel + 1, left, d, next =>
    if left < d.length then (frameLoop csid chunk fuel chunk (d.drop left) next).map fun r => d.take left ++ again csid :: r
    else
      match next with
      | [] => .ok d
      | d' :: next => (frameLoop csid chunk fuel (left - d.length) d' next).map fun r => d ++ r

/-- `ngx_kmp_rtmp_encoder_frame_write`, ngx_kmp_rtmp_encoder.c:1038-1175: what is written. `buf` has 24 bytes. `chain = *frame->data` is undefined
when there is no data. -/
def frameWrite (sc : Ctx) (f : Frame) (codec : Nat) : Res (Ctx × Bytes) :=
  let ts := if sc.wrote then (u32 f.dts + 2 ^ 32 - sc.lastTs) % 2 ^ 32 else u32 f.dts
  match frameTag sc f codec with
  | none => .err
  | some (hs, type, tag) =>
    let head := writeHeader ⟨if sc.wrote then 1 else 0, sc.csid, if 0xffffff ≤ ts then 0xffffff else ts, (hs + f.size) % 2 ^ 32, type, sc.msid⟩ ++
      (if 0xffffff ≤ ts then out32 ts else []) ++ tag
    if 24 < head.length then .ub
    else
      match f.data with
      | [] => .ub
      | d :: next =>
        (frameLoop sc.csid sc.chunk (f.data.flatten.length + 2 * f.data.length + 1) ((sc.chunk + 2 ^ 64 - hs) % 2 ^ 64) d next).map fun r =>
          ({ sc with wrote := true, lastTs := u32 f.dts }, head ++ r)

/-! ## A connection -/

/-- A stream: `ngx_kmp_rtmp_stream_t`. `onfi` is `last_onfi_time`. -/
structure Strm where
  ctx : Ctx
  name : Bytes
  wroteMeta : Bool := false
  onfi : Int := 0
deriving DecidableEq, Repr

/-- `ngx_kmp_rtmp_upstream_t`: `size` and `period` are of the configuration, `tx` is `tx_id`. -/
structure Conn where
  size : Nat
  period : Nat
  tx : Nat := 1
  lastMsid : Nat := 0
  strms : List Strm := []
  out : Bytes := []
deriving DecidableEq, Repr

/-- A message is made in a buffer of the size that was computed: `ngx_kmp_rtmp_upstream_get_buf`, and the check of the size that was written. -/
def fill (e : Env) (size : Nat) (w : Bytes × Nat → Res (Bytes × Nat)) : Res Bytes :=
  w (e.fresh size, 0) >>= fun x => if x.2 = size then .ok x.1 else .err

/-- `ngx_kmp_rtmp_encoder_connect_get_size`, ngx_kmp_rtmp_encoder.c:578-593. -/
def connectSize (e : Env) (c : Connect) : Nat := amfGetSize always (amfConnect e c 1) 0 128 + (12 + 4)

/-- `ngx_kmp_rtmp_encoder_connect_write`, ngx_kmp_rtmp_encoder.c:596-622. -/
def connectWrite (e : Env) (c : Connect) (size : Nat) (x : Bytes × Nat) : Res (Bytes × Nat) :=
  amfWrite ⟨0, 3, 0, 0, 20, 0⟩ always (amfConnect e c 1) 128 x >>= fun x =>
    store x.1 x.2 (writeHeader ⟨0, 2, 0, 4, 1, 0⟩) >>= fun mem =>
      store mem (x.2 + 12) (out32 size) >>= fun mem => .ok (mem, x.2 + 12 + 4)

/-- `ngx_kmp_rtmp_upstream_write_connect`, ngx_kmp_rtmp_upstream.c:1200-1235. The first transaction is 1, ngx_kmp_rtmp_upstream.c:1306. -/
def connect (e : Env) (c : Connect) (size period : Nat) : Res Conn :=
  fill e (connectSize e c) (connectWrite e c size) >>= fun out => .ok { size, period, out }

/-- `ngx_kmp_rtmp_encoder_stream_get_size`, ngx_kmp_rtmp_encoder.c:625-643. The sizes do not depend on the transactions. -/
def streamSize (e : Env) (sc : Ctx) (name : Bytes) : Nat :=
  amfGetSize always (amfNamed e "releaseStream" 0 name) 1 sc.chunk + amfGetSize always (amfNamed e "FCPublish" 0 name) 1 sc.chunk +
    amfGetSize always (amfCreate e 0) 1 sc.chunk + amfGetSize always (amfPublish e 0 name) 0 sc.chunk

/-- `ngx_kmp_rtmp_encoder_stream_write`, ngx_kmp_rtmp_encoder.c:646-687. -/
def streamWrite (e : Env) (sc : Ctx) (name : Bytes) (tx : Nat) (x : Bytes × Nat) : Res (Bytes × Nat) :=
  amfWrite ⟨1, 3, 0, 0, 20, 0⟩ always (amfNamed e "releaseStream" ((tx + 1) % 2 ^ 32) name) sc.chunk x >>= fun x =>
    amfWrite ⟨1, 3, 0, 0, 20, 0⟩ always (amfNamed e "FCPublish" ((tx + 2) % 2 ^ 32) name) sc.chunk x >>= fun x =>
      amfWrite ⟨1, 3, 0, 0, 20, 0⟩ always (amfCreate e ((tx + 3) % 2 ^ 32)) sc.chunk x >>= fun x =>
        amfWrite ⟨0, sc.csid, 0, 0, 20, sc.msid⟩ always (amfPublish e ((tx + 4) % 2 ^ 32) name) sc.chunk x

/-- `ngx_kmp_rtmp_encoder_unstream_get_size`, ngx_kmp_rtmp_encoder.c:690-705. -/
def unstreamSize (e : Env) (sc : Ctx) (name : Bytes) : Nat :=
  amfGetSize always (amfNamed e "FCUnpublish" 0 name) 1 sc.chunk + amfGetSize always (amfDelete e 0 0) 1 sc.chunk

/-- `ngx_kmp_rtmp_encoder_unstream_write`, ngx_kmp_rtmp_encoder.c:708-737. -/
def unstreamWrite (e : Env) (sc : Ctx) (name : Bytes) (tx : Nat) (x : Bytes × Nat) : Res (Bytes × Nat) :=
  amfWrite ⟨1, 3, 0, 0, 20, 0⟩ always (amfNamed e "FCUnpublish" ((tx + 1) % 2 ^ 32) name) sc.chunk x >>= fun x =>
    amfWrite ⟨1, 3, 0, 0, 20, 0⟩ always (amfDelete e ((tx + 2) % 2 ^ 32) sc.msid) sc.chunk x

/-- The sequence header of the video, ngx_kmp_rtmp_stream.c:188-199 and 215-226: the start of its body, and the extra data. -/
def videoSeq (m : Meta) : Option (Bytes × Bytes) :=
  match m.video with
  | none => none
  | some v =>
    if v.codec = 7 then some (avcHeader 0 true 0, v.extra)
    else if v.codec = 8 then some (extHeader 0 true hvc1 0, v.extra)
    else none

/-- That of the audio, ngx_kmp_rtmp_stream.c:201-204 and 228-231. -/
def audioSeq (sc : Ctx) (m : Meta) : Option (Bytes × Bytes) :=
  match m.audio with
  | none => none
  | some a => if a.codec = 1010 then some ([UInt8.ofNat sc.sound, 0], a.extra) else none

def seqSize (size : Nat) : Option (Bytes × Bytes) → Nat
  | none => 0
  | some (t, x) => seqGetSize t.length x.length size

def seqOut (h : Hdr) (size : Nat) (s : Option (Bytes × Bytes)) (x : Bytes × Nat) : Res (Bytes × Nat) :=
  match s with
  | none => .ok x
  | some (t, d) => seqWrite h t d size x

/-- The size of what `ngx_kmp_rtmp_stream_write_meta` writes, ngx_kmp_rtmp_stream.c:186-204. -/
def metaSize (e : Env) (sc : Ctx) (m : Meta) : Nat :=
  amfGetSize (metaType m) (amfMeta e m) 0 sc.chunk + seqSize sc.chunk (videoSeq m) + seqSize sc.chunk (audioSeq sc m)

/-- ngx_kmp_rtmp_stream.c:213-231. -/
def metaWrite (e : Env) (sc : Ctx) (m : Meta) (x : Bytes × Nat) : Res (Bytes × Nat) :=
  amfWrite ⟨0, sc.csid, 0, 0, 18, sc.msid⟩ (metaType m) (amfMeta e m) sc.chunk x >>= fun x =>
    seqOut ⟨0, sc.csid, 0, 0, 9, sc.msid⟩ sc.chunk (videoSeq m) x >>= fun x =>
      seqOut ⟨0, sc.csid, 0, 0, 8, sc.msid⟩ sc.chunk (audioSeq sc m) x

/-- `ngx_kmp_rtmp_stream_onfi`, ngx_kmp_rtmp_stream.c:270-320. -/
def onfi (e : Env) (sc : Ctx) (time : Int) : Res Bytes :=
  fill e (amfGetSize always (amfOnfi (e.clock time)) 1 sc.chunk)
    (amfWrite ⟨1, sc.csid, 0, 0, 18, sc.msid⟩ always (amfOnfi (e.clock time)) sc.chunk)

/-- What happens on a connection. Streams are named by their number. -/
inductive Ev where
  /-- A stream is created. -/
  | publish (name : Bytes)
  /-- A track of audio gets its media info. -/
  | sound (id codec rate bits channels : Nat)
  /-- The metadata are written. -/
  | start (id : Nat) (m : Meta)
  /-- A frame of the stream is written. -/
  | frame (id codec : Nat) (f : Frame)
  /-- The last track of the stream is gone. -/
  | unpublish (id : Nat)
deriving DecidableEq, Repr

def Conn.find (c : Conn) (id : Nat) : Option Strm := c.strms.find? fun s => s.ctx.msid == id

def Conn.set (c : Conn) (s : Strm) : Conn := { c with strms := c.strms.map fun t => if t.ctx.msid = s.ctx.msid then s else t }

/-- A frame is due for a message with the time: ngx_kmp_rtmp_stream.c:338-344. -/
def due (period : Nat) (last created : Int) : Bool := period != 0 && (decide (created < last) || decide (last + period ≤ created))

/-- What happens, and what is written. The outcome is `err` when it cannot happen: there is no such stream, or the metadata are written before all
frames and only once (ngx_kmp_rtmp_stream.c:374-377, ngx_kmp_rtmp_track.c:508-511). -/
def step (e : Env) (c : Conn) : Ev → Res Conn
  -- `ngx_kmp_rtmp_stream_create`, ngx_kmp_rtmp_stream.c:449-507, and `ngx_kmp_rtmp_stream_publish`, 83-116.
  | .publish name =>
    let sc : Ctx := { chunk := c.size, msid := (c.lastMsid + 1) % 2 ^ 32, csid := (3 + (c.lastMsid + 1) % 2 ^ 32) % 256 }
    fill e (streamSize e sc name) (streamWrite e sc name c.tx) >>= fun bs =>
      .ok { c with lastMsid := (c.lastMsid + 1) % 2 ^ 32, tx := (c.tx + 4) % 2 ^ 32, strms := c.strms ++ [{ ctx := sc, name }], out := c.out ++ bs }
  | .sound id codec rate bits channels =>
    match c.find id with
    | none => .err
    | some s => .ok (c.set { s with ctx := { s.ctx with sound := soundInfo codec rate bits channels } })
  -- `ngx_kmp_rtmp_stream_write_meta`, ngx_kmp_rtmp_stream.c:156-254.
  | .start id m =>
    match c.find id with
    | none => .err
    | some s =>
      if s.wroteMeta then .err
      else fill e (metaSize e s.ctx m) (metaWrite e s.ctx m) >>= fun bs => .ok { c.set { s with wroteMeta := true } with out := c.out ++ bs }
  -- `ngx_kmp_rtmp_stream_write_frame`, ngx_kmp_rtmp_stream.c:323-355.
  | .frame id codec f =>
    match c.find id with
    | none => .err
    | some s =>
      if s.wroteMeta then
        frameWrite s.ctx f codec >>= fun x =>
          if due c.period s.onfi f.created then
            onfi e x.1 f.created >>= fun bs => .ok { c.set { s with ctx := x.1, onfi := f.created } with out := c.out ++ x.2 ++ bs }
          else .ok { c.set { s with ctx := x.1 } with out := c.out ++ x.2 }
      else .err
  -- `ngx_kmp_rtmp_stream_detach_track`, ngx_kmp_rtmp_stream.c:384-416, and `ngx_kmp_rtmp_stream_unpublish`, 119-153.
  | .unpublish id =>
    match c.find id with
    | none => .err
    | some s =>
      fill e (unstreamSize e s.ctx s.name) (unstreamWrite e s.ctx s.name c.tx) >>= fun bs =>
        .ok { c with tx := (c.tx + 2) % 2 ^ 32, strms := c.strms.filter fun t => t.ctx.msid != id, out := c.out ++ bs }

def steps (e : Env) (c : Conn) : List Ev → Res Conn
  | [] => .ok c
  | v :: vs => step e c v >>= fun c => steps e c vs

/-- All that happens on a connection, from its start. -/
def session (e : Env) (cn : Connect) (size period : Nat) (vs : List Ev) : Res Conn := connect e cn size period >>= fun c => steps e c vs

end Verif.KmpRtmp
