import Verif.MtsEnc

/-!
# Model: the filters before the MPEG-TS encoder, and the muxer

`/repo/nginx-pckg-module/src/media/mpegts/`: mp4_to_annexb_filter.c, adts_encoder_filter.c, id3_encoder_filter.c, buffer_filter.c and
mpegts_muxer.c. A filter takes a call and returns the calls that it makes of the next one.

Not modelled: SAMPLE-AES, failed allocations, the parts in which the frames of a track come (here they are one list), where the frames are read
from (here each frame has the pieces in which it is read), and what is sent before the end of the segment.
-/

namespace Verif.Mts

/-! ## Video -/

/-- What `mp4_to_annexb_set_media_info` sets, mp4_to_annexb_filter.c:60-110. -/
structure VideoConf where
  mask : UInt8
  audType : UInt8
  aud : List UInt8
  lenSize : Nat
  extra : List UInt8
deriving DecidableEq, Repr

/-- mp4_to_annexb_filter.c:69-74 -/
def avcConf (lenSize : Nat) (extra : List UInt8) : VideoConf := ⟨0x1f, 9, [0, 0, 0, 1, 9, 0xf0], lenSize, extra⟩

/-- mp4_to_annexb_filter.c:76-88 -/
def hevcConf (lenSize : Nat) (extra : List UInt8) : VideoConf := ⟨0x7e, 70, [0, 0, 0, 1, 0x46, 1, 0x50], lenSize, extra⟩

/-- `cur_state`, mp4_to_annexb_filter.c:39-45; STATE_NAL_TYPE is left where it is entered. -/
inductive NalState where
  | size | copy | skip
deriving DecidableEq, Repr

/-- `mp4_to_annexb_state_t`, mp4_to_annexb_filter.c:14-37 -/
structure Annexb where
  conf : VideoConf
  state : NalState := .size
  first : Bool := true
  lenLeft : Nat := 0
  packetLeft : Nat := 0
  frameLeft : Int := 0
deriving DecidableEq, Repr

/-- `mp4_to_annexb_start_frame`, mp4_to_annexb_filter.c:128-177 -/
def Annexb.start (a : Annexb) (f : OFrame) : Res (Annexb × List Call) :=
  if 0 < f.size ∧ f.size ≤ a.conf.lenSize then .err
  else
    .ok ({ a with frameLeft := f.size, first := true, state := .size, lenLeft := a.conf.lenSize, packetLeft := 0 },
      [.start { f with size := f.size + a.conf.aud.length + (if f.key then a.conf.extra.length else 0), header := f.header + a.conf.aud.length },
        .write a.conf.aud] ++ (if f.key then [.write a.conf.extra] else []))

/-- The length of a NAL unit, mp4_to_annexb_filter.c:198-201. -/
def Annexb.readLen : Annexb → List UInt8 → Annexb × List UInt8
  | a, [] => (a, [])
  | a, b :: bs => if a.lenLeft = 0 then (a, b :: bs) else
    Annexb.readLen { a with packetLeft := a.packetLeft * 256 + b.toNat, lenLeft := a.lenLeft - 1 } bs

/-- STATE_NAL_TYPE, mp4_to_annexb_filter.c:217-257: `b` is the first byte. The marker, if there is one. -/
def Annexb.nalType (a : Annexb) (b : UInt8) : Annexb × List Call :=
  if b &&& a.conf.mask = a.conf.audType then ({ a with state := .skip }, [])
  else if a.first then ({ a with first := false, frameLeft := a.frameLeft - 4, state := .copy }, [.write [0, 0, 0, 1]])
  else ({ a with frameLeft := a.frameLeft - 3, state := .copy }, [.write [0, 0, 1]])

/-- STATE_COPY_PACKET and STATE_SKIP_PACKET, mp4_to_annexb_filter.c:259-279 -/
def Annexb.body (a : Annexb) (bs : List UInt8) : Annexb × List Call × List UInt8 :=
  let n := min a.packetLeft bs.length
  let (a, out) :=
    if a.state = .copy then ({ a with frameLeft := a.frameLeft - n }, [Call.write (bs.take n)]) else (a, [])
  let a := { a with packetLeft := a.packetLeft - n }
  (if a.packetLeft = 0 then { a with state := .size, lenLeft := a.conf.lenSize, packetLeft := 0 } else a, out, bs.drop n)

/-- One round of the loop of `mp4_to_annexb_write`, mp4_to_annexb_filter.c:195-280. -/
def Annexb.round (a : Annexb) (bs : List UInt8) : Res (Annexb × List Call × List UInt8) :=
  match a.state with
  | .size =>
    match a.readLen bs with
    | (a, []) => .ok (a, [], [])
    | (a, b :: bs) =>
      if a.packetLeft = 0 then .err
      else
        let (a, out) := a.nalType b
        if a.state = .skip then .ok (a, out, b :: bs)
        else let (a, out', rest) := a.body (b :: bs); .ok (a, out ++ out', rest)
  | _ => .ok (a.body bs)

/-- The loop, mp4_to_annexb_filter.c:193-281; it is never out of fuel (`Annexb.write_ne_ub`). -/
def Annexb.loop : Nat → Annexb → List UInt8 → Res (Annexb × List Call)
  | _, a, [] => .ok (a, [])
  | 0, _, _ => .ub
  | fuel + 1, a, bs =>
    match a.round bs with
    | .ok (a, out, rest) => (Annexb.loop fuel a rest).map fun r => (r.1, out ++ r.2)
    | .err => .err
    | .ub => .ub

/-- `mp4_to_annexb_write`, mp4_to_annexb_filter.c:184-284 -/
def Annexb.write (a : Annexb) (bs : List UInt8) : Res (Annexb × List Call) := a.loop (2 * bs.length) bs

/-- The zeros at the end of a frame, mp4_to_annexb_filter.c:303-313. -/
def zeros : Nat → Nat → List Call
  | _, 0 => []
  | 0, _ => []
  | fuel + 1, n => .write (List.replicate (min n 64) 0) :: zeros fuel (n - min n 64)

/-- `mp4_to_annexb_flush_frame`, mp4_to_annexb_filter.c:287-317 -/
def Annexb.flush (a : Annexb) (last : Bool) : Res (Annexb × List Call) :=
  if a.conf.lenSize = 4 then
    if a.frameLeft < 0 then .err
    else .ok ({ a with frameLeft := 0 }, zeros a.frameLeft.toNat a.frameLeft.toNat ++ [.flush last])
  else .ok (a, [.flush last])

/-- The filter of video. -/
def Annexb.call (a : Annexb) : Call → Res (Annexb × List Call)
  | .start f => a.start f
  | .sub f => .ok (a, [.sub f])
  | .write b => a.write b
  | .flush l => a.flush l

/-- The simulated filter of video: `mp4_to_annexb_simulated_start_frame`, mp4_to_annexb_filter.c:320-336; the other calls are those of the
next filter. -/
def VideoConf.scall (c : VideoConf) : SCall → List SCall
  | .start d k h => [.start d k (h + c.aud.length), .write (c.aud.length + if k then c.extra.length else 0)]
  | x => [x]

/-! ## AAC -/

/-- The fields of `mp4a_config_t` that are used, adts_encoder_filter.c:20-51. -/
structure AacConf where
  object : Nat
  rate : Nat
  chan : Nat
deriving DecidableEq, Repr

/-- The header as `adts_encoder_set_media_info` and `adts_frame_header_set_aac_frame_length` leave it, adts_encoder_filter.c:36-41 and 68, with
the macros of bit_fields.h:4-33; the fields do not overlap, so that they are summed. -/
def AacConf.header (c : AacConf) (len : Nat) : List UInt8 :=
  [0xff, 0xf1, UInt8.ofNat ((c.object + 3) % 4 * 64 + c.rate % 16 * 4 + c.chan / 4 % 2), UInt8.ofNat (c.chan % 4 * 64 + len / 2048 % 4),
    UInt8.ofNat (len / 8), UInt8.ofNat (len % 8 * 32 + 0x1f), 0xfc]

/-- `adts_encoder_start_frame`, adts_encoder_filter.c:54-71; the other calls are those of the next filter. -/
def AacConf.call (c : AacConf) : Call → List Call
  | .start f => [.start { f with size := f.size + 7, header := f.header + 1 }, .write (c.header (f.size + 7))]
  | x => [x]

/-- `adts_encoder_simulated_start_frame`, adts_encoder_filter.c:74-83 -/
def aacScall : SCall → List SCall
  | .start d k h => [.start d k (h + 1), .write 7]
  | x => [x]

/-! ## ID3 -/

/-- `write_be32_synchsafe`, id3_defs.h:8-14 -/
def synchsafe (n : Nat) : List UInt8 :=
  [UInt8.ofNat (n / 2 ^ 21 % 128), UInt8.ofNat (n / 2 ^ 14 % 128), UInt8.ofNat (n / 2 ^ 7 % 128), UInt8.ofNat (n % 128)]

/-- The header for `n` bytes, id3_encoder_filter.c:23-33 and id3_defs.c:4-19. -/
def id3Header (n : Nat) : List UInt8 :=
  [0x49, 0x44, 0x33, 4, 0, 0] ++ synchsafe (n + 1 + 10) ++ [0x54, 0x45, 0x58, 0x54] ++ synchsafe (n + 1) ++ [0, 0, 3]

/-- `id3_encoder_start_frame`, id3_encoder_filter.c:8-34; the other calls are those of the next filter. -/
def id3Call : Call → List Call
  | .start f => [.start { f with size := f.size + 21 }, .write (id3Header f.size)]
  | x => [x]

/-- `id3_encoder_simulated_start_frame`, id3_encoder_filter.c:37-44 -/
def id3Scall : SCall → List SCall
  | .start d k h => [.start d k h, .write 21]
  | x => [x]

/-! ## The buffer of audio -/

/-- `cur_state`, buffer_filter.c:45-50 -/
inductive BufState where
  | initial | started | flushed | direct
deriving DecidableEq, Repr

/-- `buffered_frames_queue_t`, buffer_filter.c:17-22: the frames, each with the end of it in the buffer. -/
structure Ring where
  data : List (OFrame × Nat) := List.replicate 28 (⟨0, 0, false, 0, 0⟩, 0)
  wpos : Nat := 0
  rpos : Nat := 0
  full : Bool := false
deriving DecidableEq, Repr

/-- The next position. -/
def ringNext (n : Nat) : Nat := if 28 ≤ n + 1 then 0 else n + 1

/-- Add a frame, buffer_filter.c:261-276. -/
def Ring.push (r : Ring) (f : OFrame) (pos : Nat) : Ring :=
  let w := ringNext r.wpos
  { r with data := r.data.set r.wpos (f, pos), wpos := w, full := r.full || decide (w = r.rpos) }

/-- The writes of a flush when frames are not aligned, buffer_filter.c:117-147; `data` is the buffer. -/
def Ring.writes (data : List UInt8) : Nat → Nat → Ring → List Call × Ring
  | 0, _, r => ([], r)
  | fuel + 1, p, r =>
    if r.wpos = r.rpos then ([], r)
    else
      let (f, np) := r.data.getD r.rpos (⟨0, 0, false, 0, 0⟩, 0)
      let (cs, r') := Ring.writes data fuel np { r with rpos := ringNext r.rpos }
      ((if 0 < p then [Call.sub f] else []) ++ [.write ((data.take np).drop p)] ++ cs, r')

/-- `buffer_filter_t`, buffer_filter.c:24-43: `data` are the bytes until `cur_pos`, `done` is `last_flush_pos` less `start_pos`. -/
structure Buffer where
  size : Nat := 2930
  state : BufState := .initial
  cur : OFrame := ⟨0, 0, false, 0, 0⟩
  last : OFrame := ⟨0, 0, false, 0, 0⟩
  data : List UInt8 := []
  done : Nat := 0
  ring : Ring := {}
deriving DecidableEq, Repr

/-- `buffer_filter_start_frame`, buffer_filter.c:52-77 -/
def Buffer.start (b : Buffer) (f : OFrame) : Res (Buffer × List Call) :=
  match b.state with
  | .initial => .ok ({ b with cur := f, last := f, state := .started }, [])
  | .flushed => .ok ({ b with last := f, state := .started }, [])
  | _ => .err

/-- `buffer_filter_force_flush`, buffer_filter.c:79-171 -/
def Buffer.forceFlush (align : Bool) (b : Buffer) (lastFrame : Bool) : Buffer × List Call :=
  if b.done = 0 then (b, [])
  else
    let (writes, ring) :=
      if align then ([Call.write (b.data.take b.done)], b.ring)
      else
        let r := if b.ring.full then { b.ring with full := false, rpos := ringNext b.ring.wpos } else b.ring
        Ring.writes b.data 28 0 r
    ({ b with
        data := b.data.drop b.done, done := 0, ring := ring
        cur := if b.state = .started then b.last else b.cur
        state := if b.state = .flushed then .initial else b.state },
      [.start b.cur] ++ writes ++ [.flush lastFrame])

/-- `buffer_filter_write`, buffer_filter.c:184-248 -/
def Buffer.write (align : Bool) (b : Buffer) (x : List UInt8) : Res (Buffer × List Call) :=
  match b.state with
  | .direct => .ok (b, [.write x])
  | .started =>
    let (b, cs) := if b.size < b.data.length + x.length then b.forceFlush align false else (b, [])
    if b.data.length + x.length ≤ b.size then .ok ({ b with data := b.data ++ x }, cs)
    else
      .ok ({ b with state := .direct, data := [] }, cs ++ [.start b.cur] ++ (if b.data = [] then [] else [.write b.data]) ++ [.write x])
  | _ => .err

/-- `buffer_filter_flush_frame`, buffer_filter.c:251-306 -/
def Buffer.flush (align : Bool) (b : Buffer) (lastFrame : Bool) : Buffer × List Call :=
  match b.state with
  | .started =>
    let b := if align then b else { b with ring := b.ring.push b.last b.data.length }
    let b := { b with done := b.data.length, state := .flushed }
    if lastFrame then b.forceFlush align true else (b, [])
  | .direct => ({ b with state := .initial }, [.flush lastFrame])
  | _ => (b, [])

/-- The buffer as a filter. -/
def Buffer.call (align : Bool) (b : Buffer) : Call → Res (Buffer × List Call)
  | .start f => b.start f
  | .sub f => .ok (b, [.sub f])
  | .write x => b.write align x
  | .flush l => .ok (b.flush align l)

/-- Calls, one after another. -/
def Buffer.calls (align : Bool) : Buffer → List Call → Res (Buffer × List Call)
  | b, [] => .ok (b, [])
  | b, c :: cs =>
    match b.call align c with
    | .ok (b, out) => (Buffer.calls align b cs).map fun r => (r.1, out ++ r.2)
    | .err => .err
    | .ub => .ub

/-- `buffer_filter_get_dts`, buffer_filter.c:308-320 -/
def Buffer.dts (b : Buffer) : Option Nat := if b.state = .initial then none else some b.cur.dts

/-- The buffer as the simulation uses it, buffer_filter.c:40-42; a frame has its dts, whether it is a key frame, and the size of its header. -/
structure SBuffer where
  size : Nat := 2930
  state : BufState := .initial
  cur : Nat × Bool × Nat := (0, false, 0)
  last : Nat × Bool × Nat := (0, false, 0)
  used : Nat := 0
  done : Nat := 0
deriving DecidableEq, Repr

/-- `buffer_filter_simulated_force_flush`, buffer_filter.c:323-350 -/
def SBuffer.forceFlush (b : SBuffer) (lastFrame : Bool) : SBuffer × List SCall :=
  if b.done = 0 then (b, [])
  else
    ({ b with
        used := b.used - b.done, done := 0
        cur := if b.state = .started then b.last else b.cur
        state := if b.state = .flushed then .initial else b.state },
      [.start b.cur.1 b.cur.2.1 b.cur.2.2, .write b.done, .flush lastFrame])

/-- The simulated buffer as a filter, buffer_filter.c:342-419 -/
def SBuffer.call (b : SBuffer) : SCall → SBuffer × List SCall
  | .start d k h => ({ b with cur := if b.state = .initial then (d, k, h) else b.cur, last := (d, k, h), state := .started }, [])
  | .write n =>
    if b.state = .direct then (b, [.write n])
    else
      let (b, cs) := if b.size < b.used + n then b.forceFlush false else (b, [])
      if b.used + n ≤ b.size then ({ b with used := b.used + n }, cs)
      else ({ b with state := .direct, used := 0 }, cs ++ [.start b.cur.1 b.cur.2.1 b.cur.2.2, .write (b.used + n)])
  | .flush l =>
    match b.state with
    | .started =>
      let b := { b with done := b.used, state := .flushed }
      if l then b.forceFlush true else (b, [])
    | .direct => ({ b with state := .initial }, [.flush l])
    | _ => (b, [])

/-- Simulated calls, one after another. -/
def SBuffer.calls : SBuffer → List SCall → SBuffer × List SCall
  | b, [] => (b, [])
  | b, c :: cs =>
    let (b, out) := b.call c
    let (b, out') := SBuffer.calls b cs
    (b, out ++ out')

/-- `buffer_filter_get_dts`, buffer_filter.c:308-320 -/
def SBuffer.dts (b : SBuffer) : Option Nat := if b.state = .initial then none else some b.cur.1

/-! ## The filters of a stream -/

/-- The filters before the encoder, mpegts_muxer.c:306-357 and 226. -/
inductive Filt where
  | video (a : Annexb)
  | audio (h : Option AacConf) (b : Buffer)
  | id3
deriving DecidableEq, Repr

/-- A call of the first filter of a stream; the calls of the encoder. -/
def Filt.call (align : Bool) : Filt → Call → Res (Filt × List Call)
  | .video a, c => (a.call c).map fun r => (.video r.1, r.2)
  | .audio h b, c => (b.calls align (match h with | some h => h.call c | none => [c])).map fun r => (.audio h r.1, r.2)
  | .id3, c => .ok (.id3, id3Call c)

/-- Calls, one after another. -/
def Filt.calls (align : Bool) : Filt → List Call → Res (Filt × List Call)
  | b, [] => .ok (b, [])
  | b, c :: cs =>
    match b.call align c with
    | .ok (b, out) => (Filt.calls align b cs).map fun r => (r.1, out ++ r.2)
    | .err => .err
    | .ub => .ub

/-- The filters of the simulation. -/
inductive SFilt where
  | video (c : VideoConf)
  | audio (aac : Bool) (b : SBuffer)
  | id3
deriving DecidableEq, Repr

/-- A simulated call of the first filter of a stream. -/
def SFilt.call : SFilt → SCall → SFilt × List SCall
  | .video v, c => (.video v, v.scall c)
  | .audio h b, c => let r := b.calls (if h then aacScall c else [c]); (.audio h r.1, r.2)
  | .id3, c => (.id3, id3Scall c)

/-- Simulated calls, one after another. -/
def SFilt.calls : SFilt → List SCall → SFilt × List SCall
  | b, [] => (b, [])
  | b, c :: cs =>
    let (b, out) := b.call c
    let (b, out') := SFilt.calls b cs
    (b, out ++ out')

/-! ## The muxer -/

/-- `input_frame_t`, frames_source.h:8-13, with the pieces in which it is read (mpegts_muxer.c:635-677). -/
structure InFrame where
  duration : Nat
  ptsDelay : Nat
  key : Bool
  pieces : List (List UInt8)
deriving DecidableEq, Repr

/-- `size` of the frame. -/
def InFrame.size (f : InFrame) : Nat := f.pieces.flatten.length

/-- `mpegts_muxer_stream_state_t`, mpegts_muxer.h:27-51: the filters, the frames that are left and `next_frame_time_offset`. -/
structure Stream where
  filt : Filt
  frames : List InFrame
  time : Nat
deriving DecidableEq, Repr

/-- The muxer. The encoder of stream `i` is in `out`. -/
structure Mux where
  streams : List Stream
  out : Out
deriving DecidableEq, Repr

/-- `mpegts_muxer_choose_stream`, mpegts_muxer.c:486-524: the first of those with the smallest time among those that have frames. `best` is the
best before `k`. -/
def choose : Nat → Option (Nat × Nat) → List (Bool × Nat) → Option Nat
  | _, best, [] => best.map Prod.fst
  | k, best, (has, t) :: ss =>
    choose (k + 1)
      (if has then
        match best with
        | none => some (k, t)
        | some (_, u) => if t < u then some (k, t) else best
      else best) ss

/-- What `mpegts_muxer_choose_stream` looks at. -/
def Stream.turn (s : Stream) : Bool × Nat := (!s.frames.isEmpty, s.time)

/-- Calls of the encoder of a stream. -/
def Out.calls (align : Bool) (i : Nat) (o : Out) (cs : List Call) : Out := cs.foldl (Out.call align i) o

/-- Flush what stream `j` has buffered, if it is too long ago, mpegts_muxer.c:557-578. -/
def Mux.flushOther (align : Bool) (i dts : Nat) (m : Mux) (j : Nat) : Mux :=
  if j = i then m
  else
    match m.streams[j]? with
    | some { filt := .audio h b, frames := fs, time := t } =>
      match b.dts with
      | some d =>
        if d + 31500 < dts then
          let r := b.forceFlush align false
          { streams := m.streams.set j { filt := .audio h r.1, frames := fs, time := t }, out := m.out.calls align j r.2 }
        else m
      | none => m
    | _ => m

/-- One frame: `mpegts_muxer_start_frame`, mpegts_muxer.c:527-606, and the part of `mpegts_muxer_process` until the next frame, 635-686. -/
def Mux.frame (align : Bool) (m : Mux) (i : Nat) (s : Stream) (f : InFrame) (rest : List InFrame) : Res Mux :=
  let m := (List.range m.streams.length).foldl (Mux.flushOther align i s.time) m
  let o : OFrame := ⟨s.time + f.ptsDelay, s.time, f.key, f.size, 0⟩
  match s.filt.calls align ([.start o] ++ f.pieces.map .write ++ [.flush rest.isEmpty]) with
  | .ok (filt, cs) =>
    .ok { streams := m.streams.set i { filt := filt, frames := rest, time := s.time + f.duration }, out := m.out.calls align i cs }
  | .err => .err
  | .ub => .ub

/-- `mpegts_muxer_process`, mpegts_muxer.c:626-706; the number is of the frames. -/
def Mux.run (align : Bool) : Nat → Mux → Res Mux
  | 0, m => .ok m
  | n + 1, m =>
    match choose 0 none (m.streams.map Stream.turn) with
    | none => .ok m
    | some i =>
      match m.streams[i]? with
      | some { filt := g, frames := f :: rest, time := t } =>
        match m.frame align i { filt := g, frames := f :: rest, time := t } f rest with
        | .ok m => m.run align n
        | .err => .err
        | .ub => .ub
      | _ => .ub

/-- A stream of the simulation. -/
structure SStream where
  filt : SFilt
  frames : List InFrame
  time : Nat
deriving DecidableEq, Repr

/-- The muxer of the simulation. -/
structure SMux where
  streams : List SStream
  out : SOut
deriving DecidableEq, Repr

def SStream.turn (s : SStream) : Bool × Nat := (!s.frames.isEmpty, s.time)

/-- Simulated calls of the encoder of a stream. -/
def SOut.calls (align : Bool) (i : Nat) (o : SOut) (cs : List SCall) : SOut := cs.foldl (SOut.call align i) o

/-- `mpegts_muxer_simulation_flush_delayed_streams`, mpegts_muxer.c:709-735, for stream `j` -/
def SMux.flushOther (align : Bool) (i dts : Nat) (m : SMux) (j : Nat) : SMux :=
  if j = i then m
  else
    match m.streams[j]? with
    | some { filt := .audio h b, frames := fs, time := t } =>
      match b.dts with
      | some d =>
        if d + 31500 < dts then
          let r := b.forceFlush false
          { streams := m.streams.set j { filt := .audio h r.1, frames := fs, time := t }, out := m.out.calls align j r.2 }
        else m
      | none => m
    | _ => m

/-- One frame: `mpegts_muxer_simulation_write_frame`, mpegts_muxer.c:738-752, and its caller, 782-800. -/
def SMux.frame (align : Bool) (m : SMux) (i : Nat) (s : SStream) (f : InFrame) (rest : List InFrame) : SMux :=
  let m := (List.range m.streams.length).foldl (SMux.flushOther align i s.time) m
  let r := s.filt.calls [.start s.time f.key 0, .write f.size, .flush rest.isEmpty]
  { streams := m.streams.set i { filt := r.1, frames := rest, time := s.time + f.duration }, out := m.out.calls align i r.2 }

/-- `mpegts_muxer_simulate_get_segment_size`, mpegts_muxer.c:755-820 -/
def SMux.run (align : Bool) : Nat → SMux → SMux
  | 0, m => m
  | n + 1, m =>
    match choose 0 none (m.streams.map SStream.turn) with
    | none => m
    | some i =>
      match m.streams[i]? with
      | some { filt := g, frames := f :: rest, time := t } => (m.frame align i { filt := g, frames := f :: rest, time := t } f rest).run align n
      | _ => m

/-! ## A segment -/

/-- What a stream is made of: the track, and what `mpegts_encoder_add_stream` gives it. -/
inductive Kind where
  | video (c : VideoConf)
  | audio (h : Option AacConf)
  | id3 (cc : Nat)
deriving DecidableEq, Repr

/-- A track of the segment: its kind, pid, stream id and whether it has the PCR, and the frames from a time on. -/
structure Track where
  kind : Kind
  pid : Nat
  sid : Nat
  pcr : Bool
  frames : List InFrame
  time : Nat
deriving DecidableEq, Repr

def Kind.media : Kind → Media
  | .video _ => .video
  | .audio _ => .audio
  | .id3 _ => .id3

/-- `initial_cc`, mpegts_encoder_filter.c:1371 -/
def Kind.cc : Kind → Nat
  | .id3 cc => cc % 16
  | _ => 0

def Kind.filt : Kind → Filt
  | .video c => .video { conf := c }
  | .audio h => .audio h {}
  | .id3 _ => .id3

def Kind.sfilt : Kind → SFilt
  | .video c => .video c
  | .audio h => .audio h.isSome {}
  | .id3 _ => .id3

def Track.info (t : Track) : Info := ⟨t.kind.media, t.pid, t.sid, t.pcr⟩

/-- `mpegts_muxer_init_base`, mpegts_muxer.c:241-399, for tracks whose identifiers were given -/
def initMux (ts : List Track) : Mux :=
  { streams := ts.map fun t => { filt := t.kind.filt, frames := t.frames, time := t.time }
    out := { encs := ts.map fun t => { info := t.info, cc := t.kind.cc } } }

def initSMux (ts : List Track) : SMux :=
  { streams := ts.map fun t => { filt := t.kind.sfilt, frames := t.frames, time := t.time }
    out := { encs := ts.map fun t => { info := t.info, cc := t.kind.cc, initialCc := t.kind.cc } } }

/-- The number of frames. -/
def frameCount (ts : List Track) : Nat := (ts.map fun t => t.frames.length).sum

/-- The packets that are written after the tables. -/
def segment (align : Bool) (ts : List Track) : Res (List (List UInt8)) :=
  ((initMux ts).run align (frameCount ts)).map fun m => m.out.packets

/-- The size that is announced. -/
def announced (align : Bool) (ts : List Track) : Nat := ((initSMux ts).run align (frameCount ts)).out.offset

end Verif.Mts
