import Verif.Basic

/-!
# Model: the MPEG-TS encoder of the packager

`/repo/nginx-pckg-module/src/media/mpegts/mpegts_encoder_filter.c`, with `interleave_frames` off, which is the default
(ngx_http_pckg_mpegts.c:315-316). `align_frames` is a parameter. The functions of a filter that call the next filter are modelled as functions
that return the calls; this is the last filter.

Not modelled: failed allocations, `send_queue_offset` and `last_queue_offset` (what may be sent before the end of the segment), and numbers that
overflow 32 or 64 bits (sizes, times).
-/

namespace Verif.Mts

/-- `media_type` of a stream; `id3` is MEDIA_TYPE_NONE, used for ID3. -/
inductive Media where
  | video | audio | id3
deriving DecidableEq, Repr

/-- `mpegts_stream_info_t`, mpegts_encoder_filter.h:18-23 -/
structure Info where
  media : Media
  pid : Nat
  sid : Nat
  pcr : Bool
deriving DecidableEq, Repr

/-- `output_frame_t`, media_filter.h:24-30 -/
structure OFrame where
  pts : Nat
  dts : Nat
  key : Bool
  size : Nat
  header : Nat
deriving DecidableEq, Repr

/-- A call of a filter, media_filter.h:32-40: `start_frame`, `write` and `flush_frame`; `sub` is `mpegts_encoder_start_sub_frame`. -/
inductive Call where
  | start (f : OFrame)
  | sub (f : OFrame)
  | write (b : List UInt8)
  | flush (last : Bool)
deriving DecidableEq, Repr

/-- `mpegts_write_pcr`, mpegts_encoder_filter.c:193-205 -/
def writePcr (pcr : Nat) : List UInt8 :=
  [UInt8.ofNat (pcr / 2 ^ 25), UInt8.ofNat (pcr / 2 ^ 17), UInt8.ofNat (pcr / 2 ^ 9), UInt8.ofNat (pcr / 2), UInt8.ofNat (pcr * 128) ||| 0x7e, 0]

/-- `mpegts_write_pts`, mpegts_encoder_filter.c:208-225; `fb << 4 | x << 1 | 1` are sums as the bits differ. -/
def writePts (fb pts : Nat) : List UInt8 :=
  let v1 := pts / 2 ^ 15 % 2 ^ 15 * 2 + 1
  let v2 := pts % 2 ^ 15 * 2 + 1
  [UInt8.ofNat (fb * 16 + pts / 2 ^ 30 % 8 * 2 + 1), UInt8.ofNat (v1 / 256), UInt8.ofNat v1, UInt8.ofNat (v2 / 256), UInt8.ofNat v2]

/-- `mpegts_get_pes_header_size`, mpegts_encoder_filter.c:239-258; includes the adaptation field. -/
def Info.pesSize (i : Info) : Nat := 14 + (if i.pcr then 8 else 0) + (if i.media = .video then 5 else 0)

/-- What `mpegts_write_pes_header` writes after the packet header, mpegts_encoder_filter.c:260-316; the size is written later, until then
it is zero here. -/
def Info.pesHeader (i : Info) (f : OFrame) (aligned : Bool) : List UInt8 :=
  (if i.pcr then [7, 0x10] ++ writePcr (f.dts + 4590) else []) ++
  [0, 0, 1, UInt8.ofNat i.sid] ++ [0, 0] ++
  [if aligned then 0x84 else 0x80, if i.media = .video then 0xc0 else 0x80, if i.media = .video then 10 else 5] ++
  writePts (if i.media = .video then 3 else 2) (f.pts + 9090) ++
  (if i.media = .video then writePts 1 (f.dts + 9090) else [])

/-- Where `mpegts_write_pes_header` leaves the size, `*pes_size_ptr`, mpegts_encoder_filter.c:300. -/
def Info.sizeAt (i : Info) : Nat := 4 + (if i.pcr then 8 else 0) + 4

/-- `mpegts_write_pes_header`: sets the flags in the packet header and pushes the PES header in, mpegts_encoder_filter.c:271-275 and 836-846,
938-950; the callers have moved what was behind the packet header. -/
def Info.pushPes (i : Info) (f : OFrame) (aligned : Bool) (p : List UInt8) : List UInt8 :=
  let h := (p.take 4).modify 1 (· ||| 0x40)
  let h := if i.pcr then h.modify 3 (· ||| 0x20) else h
  h ++ i.pesHeader f aligned ++ p.drop 4

/-- `mpegts_add_stuffing`, mpegts_encoder_filter.c:318-345; `p` is the packet up to the current position. -/
def addStuffing (p : List UInt8) (n : Nat) : List UInt8 :=
  if (p.getD 3 0) &&& 0x20 ≠ 0 then
    let base := 5 + (p.getD 4 0).toNat
    (p.take base).modify 4 (· + UInt8.ofNat n) ++ List.replicate n 0xff ++ p.drop base
  else
    (p.take 4).modify 3 (· ||| 0x20) ++ [UInt8.ofNat (n - 1)] ++ (if 2 ≤ n then 0 :: List.replicate (n - 2) 0xff else []) ++ p.drop 4

/-- `mpegts_write_packet_header`, mpegts_encoder_filter.c:227-237 -/
def packetHeader (pid cc : Nat) : List UInt8 := [0x47, UInt8.ofNat (pid / 256), UInt8.ofNat pid, UInt8.ofNat (16 + cc % 16)]

/-- `mpegts_encoder_state_t`, mpegts_encoder_filter.h:25-64. The pointers are numbers of packets of the queue and of bytes in them; `pos` is
188 if there is no packet with room. -/
structure Enc where
  info : Info
  cur : Nat := 0
  pos : Nat := 188
  cc : Nat := 0
  sizeAt : Nat × Nat := (0, 0)
  pesBytes : Nat := 0
  flushed : Nat := 0
  left : Nat := 0
  header : Nat := 0
  lastPts : Option Nat := none
deriving DecidableEq, Repr

/-- The queue and the streams. `packets` are those of the queue, each up to its current position; `last` is `queue->last_writer_context`. -/
structure Out where
  packets : List (List UInt8) := []
  last : Option Nat := none
  encs : List Enc
deriving DecidableEq, Repr

/-- The packet of a stream. -/
def Out.cur (o : Out) (e : Enc) : List UInt8 := o.packets.getD e.cur []

/-- Write into a packet. -/
def Out.onPacket (o : Out) (k : Nat) (f : List UInt8 → List UInt8) : Out := { o with packets := o.packets.modify k f }

/-- `mpegts_encoder_init_packet`, mpegts_encoder_filter.c:708-735, with write_buffer_queue.c:29-42 -/
def Out.initPacket (o : Out) (i : Nat) (e : Enc) : Out × Enc :=
  ({ o with packets := o.packets ++ [packetHeader e.info.pid e.cc], last := some i },
    { e with cur := o.packets.length, pos := 4, cc := e.cc + 1, lastPts := none })

/-- The size of a PES packet, in the packet that has it. -/
def setSize (p : List UInt8) (at_ : Nat) (n : Nat) : List UInt8 := (p.set at_ (UInt8.ofNat (n / 256))).set (at_ + 1) (UInt8.ofNat n)

/-- `mpegts_encoder_stuff_cur_packet`, mpegts_encoder_filter.c:737-800 -/
def Out.stuff (o : Out) (e : Enc) : Out × Enc :=
  let (o, e) :=
    if e.pesBytes ≠ 0 ∧ e.info.media ≠ .video then
      let p := o.packets.getD e.sizeAt.1 []
      let n := (p.getD e.sizeAt.2 0).toNat * 256 + (p.getD (e.sizeAt.2 + 1) 0).toNat + e.pesBytes
      (o.onPacket e.sizeAt.1 (setSize · e.sizeAt.2 (if n > 0xffff then 0 else n)), { e with pesBytes := 0 })
    else (o, e)
  let o := if e.pos < 188 then o.onPacket e.cur (addStuffing · (188 - e.pos)) else o
  (o, { e with pos := 188 })

/-- The stream that wrote last is closed if it is another one, mpegts_encoder_filter.c:816-825. -/
def Out.closeLast (o : Out) (i : Nat) : Out :=
  match o.last with
  | none => o
  | some j =>
    if j = i then o
    else
      match o.encs[j]? with
      | none => o
      | some e => let (o, e) := o.stuff e; { o with encs := o.encs.set j e }

/-- `mpegts_encoder_start_frame`, mpegts_encoder_filter.c:802-953, without what is for `interleave_frames` -/
def Out.start (o : Out) (i : Nat) (e : Enc) (f : OFrame) : Out × Enc :=
  let e := { e with flushed := 0, header := f.header }
  if 188 ≤ e.pos then
    let (o, e) := o.initPacket i e
    let o := o.onPacket e.cur (e.info.pushPes f true)
    let e := { e with pos := 4 + e.info.pesSize, sizeAt := (e.cur, e.info.sizeAt) }
    (o, { e with left := 188 - e.pos })
  else
    let f := match e.lastPts with | some t => { f with pts := t } | none => f
    if e.pos + e.info.pesSize < 188 then
      let o := o.onPacket e.cur (e.info.pushPes f false)
      let e := { e with pos := e.pos + e.info.pesSize, sizeAt := (e.cur, e.info.sizeAt) }
      (o, { e with left := 188 - e.pos })
    else
      let excess := e.pos + e.info.pesSize - 188
      let k := e.cur
      let data := (o.cur e).drop (e.pos - excess)
      let (o, e) :=
        if 0 < excess then
          let (o, e) := o.initPacket i e
          let o := o.onPacket e.cur (· ++ data)
          let e := { e with pos := 4 + excess }
          (o, { e with left := 188 - e.pos })
        else (o, { e with pos := 188, left := 184 })
      (o.onPacket k fun p => e.info.pushPes f false (p.take (188 - e.info.pesSize)), { e with sizeAt := (k, e.info.sizeAt) })

/-- The full packets of `mpegts_encoder_write`, mpegts_encoder_filter.c:1025-1039. -/
def Out.full (i : Nat) : Nat → Out → Enc → List UInt8 → Out × Enc × List UInt8
  | 0, o, e, b => (o, e, b)
  | n + 1, o, e, b =>
    if 184 ≤ b.length then
      let (o, e) := o.initPacket i e
      Out.full i n (o.onPacket e.cur (· ++ b.take 184)) e (b.drop 184)
    else (o, e, b)

/-- `mpegts_encoder_write`, mpegts_encoder_filter.c:955-1064 -/
def Out.write (o : Out) (i : Nat) (e : Enc) (b : List UInt8) : Out × Enc :=
  let e := { e with pesBytes := e.pesBytes + b.length }
  let (o, e) := if 188 ≤ e.pos then o.initPacket i e else (o, e)
  if e.pos + b.length < 188 then (o.onPacket e.cur (· ++ b), { e with pos := e.pos + b.length })
  else
    let n := 188 - e.pos
    let o := o.onPacket e.cur (· ++ b.take n)
    let e := { e with flushed := e.flushed + e.left, left := 184 }
    let b := b.drop n
    let (o, e, r) := Out.full i b.length o e b
    let e := { e with flushed := e.flushed + (b.length - r.length) }
    if r ≠ [] then
      let (o, e) := o.initPacket i e
      (o.onPacket e.cur (· ++ r), { e with pos := 4 + r.length })
    else (o, { e with pos := 188 })

/-- What is behind the header of a packet without data, mpegts_encoder_filter.c:1066-1085. -/
def nullRest : List UInt8 := [183, 0] ++ List.replicate 182 0xff

/-- `mpegts_append_null_packet`, mpegts_encoder_filter.c:1066-1085, a number of times -/
def Out.nulls (i : Nat) : Nat → Out → Enc → Out × Enc
  | 0, o, e => (o, e)
  | n + 1, o, e =>
    let (o, e) := o.initPacket i e
    Out.nulls i n (o.onPacket e.cur fun p => p.modify 3 (· ||| 0x20) ++ nullRest) e

/-- `mpegts_encoder_flush_frame`, mpegts_encoder_filter.c:1087-1160; the loop at 1146-1153 ends when the lower four bits of the counter are 0.
The size may be less than zero, then it is that of 32 bits. -/
def Out.flush (o : Out) (align : Bool) (i : Nat) (e : Enc) (lastFrame : Bool) : Out × Enc :=
  let stuff := align || decide (188 ≤ e.pos) || decide (e.flushed < e.header) || lastFrame
  let (n, e) :=
    if e.info.media = .video ∧ align = false then (0, e)
    else
      let n := 8 + e.pesBytes + (if e.info.media = .video then 5 else 0)
      let n := if n > 0xffff then 0 else n
      if !stuff then ((n + 2 ^ 32 - (e.pos - 4)) % 2 ^ 32, { e with pesBytes := e.pos - 4 })
      else (n, { e with pesBytes := 0 })
  let o := o.onPacket e.sizeAt.1 (setSize · e.sizeAt.2 n)
  let (o, e) := if stuff then o.stuff e else (o, e)
  if lastFrame ∧ e.info.media ≠ .id3 then
    let (o, e) := Out.nulls i ((16 - e.cc % 16) % 16) o e
    (o, { e with pos := 188 })
  else (o, e)

/-- `mpegts_encoder_start_sub_frame`, mpegts_encoder_filter.c:1162-1190 -/
def Out.sub (o : Out) (i : Nat) (e : Enc) (f : OFrame) : Out × Enc :=
  if 188 ≤ e.pos then
    let (o, e) := o.initPacket i e
    (o, { e with lastPts := some f.pts })
  else (o, { e with lastPts := some (e.lastPts.getD f.pts) })

/-- A call of the encoder of stream `i`. -/
def Out.call (align : Bool) (i : Nat) (o : Out) (c : Call) : Out :=
  let o := match c with | .start _ => o.closeLast i | _ => o
  match o.encs[i]? with
  | none => o
  | some e =>
    let (o, e) :=
      match c with
      | .start f => o.start i e f
      | .sub f => o.sub i e f
      | .write b => o.write i e b
      | .flush l => o.flush align i e l
    { o with encs := o.encs.set i e }

/-! ## The simulation, which finds the size of the segment before it is written -/

/-- A simulated call of a filter, media_filter.h:42-50. -/
inductive SCall where
  | start (dts : Nat) (key : Bool) (header : Nat)
  | write (n : Nat)
  | flush (last : Bool)
deriving DecidableEq, Repr

/-- The fields of `mpegts_encoder_state_t` that the simulation uses for its result, mpegts_encoder_filter.h:49-57; the positions of frames
(`cur_frame_start_pos`, ...) are written but never read. -/
structure SEnc where
  info : Info
  cc : Nat := 0
  initialCc : Nat := 0
  temp : Nat := 0
  flushed : Nat := 0
  left : Nat := 0
  header : Nat := 0
deriving DecidableEq, Repr

/-- `write_buffer_queue_t` as the simulation uses it, with the streams; mpegts_encoder_filter.c:1194-1199. -/
structure SOut where
  offset : Nat := 2 * 188
  last : Option Nat := none
  encs : List SEnc
deriving DecidableEq, Repr

/-- `mpegts_encoder_simulated_stuff_cur_packet`, mpegts_encoder_filter.c:1202-1224 -/
def SOut.stuff (o : SOut) (i : Nat) (e : SEnc) : SOut × SEnc :=
  if 0 < e.temp then ({ o with offset := o.offset + 188, last := some i }, { e with cc := e.cc + 1, temp := 0 }) else (o, e)

/-- The stream that wrote last is closed, mpegts_encoder_filter.c:1239-1245. -/
def SOut.closeLast (o : SOut) (i : Nat) : SOut :=
  match o.last with
  | none => o
  | some j =>
    if j = i then o
    else
      match o.encs[j]? with
      | none => o
      | some e => if 0 < e.temp then let (o, e) := o.stuff j e; { o with encs := o.encs.set j e } else o

/-- `mpegts_encoder_simulated_start_frame`, mpegts_encoder_filter.c:1227-1268 -/
def SOut.start (o : SOut) (i : Nat) (e : SEnc) (header : Nat) : SOut × SEnc :=
  let e := { e with flushed := 0, header := header, temp := e.temp + e.info.pesSize }
  let (o, e) :=
    if 184 ≤ e.temp then ({ o with offset := o.offset + 188, last := some i }, { e with cc := e.cc + 1, temp := e.temp - 184 })
    else (o, e)
  (o, { e with left := 184 - e.temp })

/-- `mpegts_encoder_simulated_write`, mpegts_encoder_filter.c:1271-1306 -/
def SOut.write (o : SOut) (i : Nat) (e : SEnc) (n : Nat) : SOut × SEnc :=
  let n := n + e.temp
  let count := n / 184
  let e := { e with temp := n - count * 184 }
  if count = 0 then (o, e)
  else
    ({ o with offset := o.offset + count * 188, last := some i },
      { e with flushed := e.flushed + (e.left + (count - 1) * 184), left := 184, cc := e.cc + count })

/-- `mpegts_encoder_simulated_flush_frame`, mpegts_encoder_filter.c:1309-1335 -/
def SOut.flush (o : SOut) (align : Bool) (i : Nat) (e : SEnc) (lastFrame : Bool) : SOut × SEnc :=
  let (o, e) := if align || decide (e.temp = 0) || decide (e.flushed < e.header) || lastFrame then o.stuff i e else (o, e)
  if lastFrame then
    let o :=
      if e.cc % 16 ≠ 0 ∧ e.info.media ≠ .id3 then { o with offset := o.offset + (16 - e.cc % 16) * 188, last := some i } else o
    (o, { e with cc := e.initialCc })
  else (o, e)

/-- A simulated call of the encoder of stream `i`. -/
def SOut.call (align : Bool) (i : Nat) (o : SOut) (c : SCall) : SOut :=
  let o := match c with | .start _ _ _ => o.closeLast i | _ => o
  match o.encs[i]? with
  | none => o
  | some e =>
    let (o, e) :=
      match c with
      | .start _ _ h => o.start i e h
      | .write n => o.write i e n
      | .flush l => o.flush align i e l
    { o with encs := o.encs.set i e }

end Verif.Mts
