import Verif.BufStream
import Verif.KmpIn
import Verif.KmpInAck

/-!
# Model of nginx-kmp-out-module/src/ngx_kmp_out_track.c and ngx_kmp_out_upstream.c

The track writes packets into the buffer queue, the upstreams send them and move their acked position.

* Buffers. A node of the queue is known by its number in order of allocation, counted from the creation of
  the track: node `k` holds the bytes `k * cap .. (k+1) * cap` of everything that was written. `base` is the
  number of nodes released so far; memory that is released and handed out again is a new node with a new
  number. Looking at a released node is `ub`, and looking at bytes that were not written yet is `ub`.
* The connection. `wire` are the bytes the socket has taken on the current connection, `c->sent` is its
  length. How much a socket takes, whether it fails, whether a republish is allowed (state, url, counters,
  ngx_kmp_out_upstream.c:654-676) and the memory pressure are inputs.
* Not modelled: the http calls to the controller (publish, republish, unpublish), timers, logs, md5 of frames,
  statistics other than `written` and `last_frame_written`, and failed allocations (they end the track).
  `send_pending` is part of the input: an upstream for which nothing is attempted has no entry in `io`.
-/

namespace Verif.KmpOut

open Verif.KmpIn (field ptype hsize dsize tMediaInfo tFrame tNull tEos)
open Verif.KmpInAck (bytesOf)
open Verif.BufStream (Stream)

/-- `ngx_kmp_out_resume_from_e` (ngx_kmp_out_upstream.h:13-17). -/
inductive Policy where
  | lastAcked
  | lastSent
  | lastWritten
deriving Repr, DecidableEq

/-- A buffer of the `busy` chain: memory of the upstream itself (connect packet, media info), or the bytes
`lo .. hi` of node `node` (ngx_kmp_out_upstream.c:1229-1311, 1393-1417). -/
inductive Chunk where
  | own (b : List UInt8)
  | ref (node lo hi : Nat)
deriving Repr, DecidableEq

/-- `ngx_kmp_out_upstream_t` (ngx_kmp_out_upstream.h:20-66). `conn`: `peer.connection != NULL`; `last`:
`u->last != NULL` (the connect packet was queued); `acked`: `acked_bytes`; `recv`: the part of the ack packet
that was received. -/
structure Up where
  policy      : Policy
  conn        : Bool
  last        : Bool
  busy        : List Chunk
  wire        : List UInt8
  sentBase    : Int
  reader      : Stream
  frame       : Nat
  upFrame     : Nat
  offset      : Nat
  info        : List UInt8
  acked       : Nat
  noRepublish : Bool
  connectData : List UInt8
  recv        : List UInt8
deriving Repr, DecidableEq

/-- `ngx_kmp_out_track_t` (ngx_kmp_out_track_internal.h:60-104). `pos`, `last`: offsets of `active_buf.pos`
and `active_buf.last` in the last node of the queue (`active_buf.start` is 0, `active_buf.end` is `cap`; before
the first write there is no node, and all are NULL). `lastFrame`: `stats.last_frame_written`. -/
structure Track where
  cap       : Nat
  base      : Nat
  nodes     : List (List UInt8)
  pos       : Nat
  last      : Nat
  written   : Nat
  lastFrame : Nat
  blocked   : Bool
  connect   : List UInt8
  ups       : List Up
deriving Repr, DecidableEq

/-- `ngx_kmp_out_track_create` (ngx_kmp_out_track.c:1572-1655): no node, no upstream. -/
def create (cap : Nat) (connect : List UInt8) : Track :=
  { cap, base := 0, nodes := [], pos := 0, last := 0, written := 0, lastFrame := 0, blocked := false, connect,
    ups := [] }

/-- The number of the byte a reader is at. -/
def Stream.off (s : Stream) (cap : Nat) : Nat := s.posNode * cap + s.posOff

/-- Node numbers counted from the first node in the queue. -/
def shift (s : Stream) (b : Nat) : Stream := { node := s.node - b, posNode := s.posNode - b, posOff := s.posOff }

/-- Node numbers counted from the creation of the track. -/
def unshift (s : Stream) (b : Nat) : Stream := { node := s.node + b, posNode := s.posNode + b, posOff := s.posOff }

/-- The node is not released and the `n` bytes were written. -/
def Sound (t : Track) (s : Stream) (n : Nat) : Prop :=
  t.base ≤ s.node ∧ t.base ≤ s.posNode ∧ Stream.off s t.cap + n ≤ t.written

instance (t : Track) (s : Stream) (n : Nat) : Decidable (Sound t s n) := by unfold Sound; infer_instance

/-- `ngx_buf_queue_stream_read` (ngx_buf_queue_stream.c:124-165) on the queue of the track. -/
def read (t : Track) (s : Stream) (n : Nat) : Res (Option (List UInt8) × Stream) :=
  if Sound t s n then
    match BufStream.read t.nodes (shift s t.base) n with
    | .ok (r, s') => .ok (r, unshift s' t.base)
    | .err => .err
    | .ub => .ub
  else .ub

/-- `ngx_buf_queue_stream_skip` (ngx_buf_queue_stream.c:168-196) on the queue of the track. -/
def skip (t : Track) (s : Stream) (n : Nat) : Res (Bool × Stream) :=
  if Sound t s n then
    match BufStream.skip t.nodes (shift s t.base) n with
    | .ok (r, s') => .ok (r, unshift s' t.base)
    | .err => .err
    | .ub => .ub
  else .ub

/-- `header_size + data_size`, both uint32_t. -/
def packetSize (h : List UInt8) : Nat := (hsize h + dsize h) % 2 ^ 32

/-- NGX_OK, NGX_DONE, NGX_DECLINED, NGX_ERROR. -/
inductive Rc where
  | ok
  | done
  | declined
  | error
deriving Repr, DecidableEq

/-- `ngx_kmp_out_upstream_ack_packet` (ngx_kmp_out_upstream.c:753-820). A size below the size of the header
makes `size - sizeof(*kmp_header)` wrap around: `ub`. -/
def ackPacket (t : Track) (u : Up) (h : List UInt8) : Res (Rc × Up) :=
  let size := packetSize h
  if ptype h = tMediaInfo then
    if size < 16 then .ub
    else match read t u.reader (size - 16) with
      | .ok (some b, r) => .ok (.ok, { u with info := h ++ b, reader := r, acked := u.acked + size })
      | .ok (none, r) => .ok (.error, { u with info := h, reader := r })
      | .err => .err
      | .ub => .ub
  else if ptype h = tFrame then
    if size < 16 then .ub
    else match skip t u.reader (size - 16) with
      | .ok (true, r) => .ok (.ok, { u with frame := (u.frame + 1) % 2 ^ 64, reader := r, acked := u.acked + size })
      | .ok (false, r) => .ok (.error, { u with reader := r })
      | .err => .err
      | .ub => .ub
  else if ptype h = tNull then .ok (.ok, { u with acked := u.acked + size })
  else if ptype h = tEos then .ok (.done, u)
  else .ok (.error, u)

/-- `ngx_kmp_out_upstream_read_packet` (ngx_kmp_out_upstream.c:823-853). -/
def readPacket (t : Track) (u : Up) (limit : Int) : Res (Rc × List UInt8 × Up) :=
  if (u.acked : Int) + 16 > limit then .ok (.declined, [], u)
  else match read t u.reader 16 with
    | .ok (none, r) => .ok (.error, [], { u with reader := r, noRepublish := true })
    | .ok (some h, r) =>
      if (u.acked : Int) + packetSize h > limit then .ok (.declined, h, u)
      else .ok (.ok, h, { u with reader := r })
    | .err => .err
    | .ub => .ub

/-- `u->sent_base + u->peer.connection->sent`. -/
def sentOff (u : Up) : Int := u.sentBase + u.wire.length

/-- The limit of an automatic ack (ngx_kmp_out_upstream.c:866-871). -/
def ackLimit (t : Track) (u : Up) : Int := if u.last then sentOff u else t.lastFrame

/-- The loop of `ngx_kmp_out_upstream_auto_ack` (ngx_kmp_out_upstream.c:878-931) up to the first
NGX_DECLINED: how it ended (`ok`: left by `break`), the upstream, `left` and `count`. The first argument bounds
the number of packets; running out of it is `ub` (the theorems exclude it). -/
def ackLoop (t : Track) : Nat → Up → Int → Nat → Nat → Res (Rc × Up × Nat × Nat)
  | 0, _, _, _, _ => .ub
  | fuel + 1, u, limit, left, count =>
    match readPacket t u limit with
    | .ok (.ok, h, u1) =>
      match ackPacket t u1 h with
      | .ok (.ok, u2) =>
        if left ≤ packetSize h then .ok (.ok, u2, left, count)
        else ackLoop t fuel u2 limit (left - packetSize h) (count + 1)
      | .ok (.done, u2) => .ok (.ok, u2, left, count)
      | .ok (_, u2) => .ok (.error, { u2 with noRepublish := true }, left, count)
      | .err => .err
      | .ub => .ub
    | .ok (.declined, _, u1) => .ok (.declined, u1, left, count)
    | .ok (_, _, u1) => .ok (.error, u1, left, count)
    | .err => .err
    | .ub => .ub

/-- Enough steps for the loop: every packet has at least one byte. -/
def fuel (t : Track) : Nat := t.written + 1

/-- NGX_MAX_SIZE_T_VALUE. -/
def maxSize : Nat := 9223372036854775807

/-- `ngx_kmp_out_upstream_auto_ack(u, NGX_MAX_SIZE_T_VALUE, 0)` (ngx_kmp_out_upstream.c:856-940). `false` is a
negative result. -/
def ackAll (t : Track) (u : Up) : Res (Bool × Up) :=
  match ackLoop t (fuel t) u (ackLimit t u) maxSize 0 with
  | .ok (.error, u1, _, _) => .ok (false, u1)
  | .ok (_, u1, _, _) => .ok (true, u1)
  | .err => .err
  | .ub => .ub

/-- `ngx_kmp_out_upstream_republish` (ngx_kmp_out_upstream.c:645-730). `allowed`: none of the tests of
lines 654-676 other than `no_republish` declines. -/
def republish (t : Track) (u : Up) (allowed : Bool) : Res (Rc × Up) :=
  if u.noRepublish || !allowed then .ok (.declined, u)
  else
    let u1 := { u with conn := false }
    if u1.last && u1.busy.isEmpty then .ok (.ok, { u1 with last := false })
    else
      let u2 := { u1 with last := false, busy := if u1.last then [] else u1.busy }
      if u2.policy = .lastWritten then
        match ackAll t u2 with
        | .ok (true, u3) => .ok (.ok, u3)
        | .ok (false, u3) => .ok (.error, u3)
        | .err => .err
        | .ub => .ub
      else .ok (.ok, u2)

/-- `ngx_kmp_out_upstream_auto_ack(u, left, 1)` (ngx_kmp_out_upstream.c:856-940): the loop; when it is
declined on a connection, republish and go on with the other limit. `none`: NGX_ERROR. -/
def autoAck (t : Track) (u : Up) (left : Nat) (allowed : Bool) : Res (Option Nat × Up) :=
  match ackLoop t (fuel t) u (ackLimit t u) left 0 with
  | .ok (.declined, u1, left1, count) =>
    if u1.last then
      match republish t u1 allowed with
      | .ok (.error, u2) => .ok (none, u2)
      | .ok (_, u2) =>
        if u2.last then .ok (some count, u2)
        else match ackLoop t (fuel t) u2 t.lastFrame left1 (count + 1) with
          | .ok (.error, u3, _, _) => .ok (none, u3)
          | .ok (_, u3, _, c) => .ok (some c, u3)
          | .err => .err
          | .ub => .ub
      | .err => .err
      | .ub => .ub
    else .ok (some count, u1)
  | .ok (.error, u1, _, _) => .ok (none, u1)
  | .ok (_, u1, _, count) => .ok (some count, u1)
  | .err => .err
  | .ub => .ub

/-- The loop of `ngx_kmp_out_upstream_ack_frames` (ngx_kmp_out_upstream.c:955-983). `false`: `goto failed`. -/
def ackFramesLoop (t : Track) : Nat → Up → Nat → Res (Bool × Up)
  | 0, _, _ => .ub
  | fuel + 1, u, id =>
    if u.frame < id then
      if (u.acked : Int) + 16 > sentOff u then .ok (false, u)
      else match read t u.reader 16 with
        | .ok (none, r) => .ok (false, { u with reader := r })
        | .ok (some h, r) =>
          let u1 := { u with reader := r }
          if (u.acked : Int) + packetSize h > sentOff u then .ok (false, u1)
          else match ackPacket t u1 h with
            | .ok (.ok, u2) => ackFramesLoop t fuel u2 id
            | .ok (_, u2) => .ok (false, u2)
            | .err => .err
            | .ub => .ub
        | .err => .err
        | .ub => .ub
    else .ok (true, u)

/-- `ngx_kmp_out_upstream_ack_frames` (ngx_kmp_out_upstream.c:943-995). -/
def ackFrames (t : Track) (u : Up) (id up off : Nat) : Res (Bool × Up) :=
  match ackFramesLoop t (fuel t) u id with
  | .ok (true, u1) => .ok (true, { u1 with upFrame := up, offset := off })
  | .ok (false, u1) => .ok (false, { u1 with noRepublish := true })
  | .err => .err
  | .ub => .ub

/-- KMP_PACKET_ACK_FRAMES (ngx_live_kmp.h:78). -/
def tAck : Nat := 0x666b6361

/-- `ngx_kmp_out_upstream_parse_ack_packet` (ngx_kmp_out_upstream.c:995-1040) on the 40 bytes received. -/
def parseAck (t : Track) (u : Up) (b : List UInt8) : Res (Bool × Up) :=
  if field b 0 4 ≠ tAck then .ok (false, u)
  else if field b 4 4 ≠ 40 then .ok (false, u)
  else if field b 8 4 ≠ 0 then .ok (false, u)
  else if u.policy ≠ .lastAcked then .ok (true, u)
  else ackFrames t u (field b 16 8) (field b 24 8) (field b 32 4)

/-- The loop of `ngx_kmp_out_upstream_read_handler` (ngx_kmp_out_upstream.c:1065-1090) on the bytes that have
arrived. The first argument is a bound on the number of packets. -/
def recvLoop (t : Track) : Nat → Up → List UInt8 → Res (Bool × Up)
  | 0, _, _ => .ub
  | fuel + 1, u, bytes =>
    let need := 40 - u.recv.length
    if bytes.length < need then .ok (true, { u with recv := u.recv ++ bytes })
    else match parseAck t { u with recv := [] } (u.recv ++ bytes.take need) with
      | .ok (true, u1) => recvLoop t fuel u1 (bytes.drop need)
      | .ok (false, u1) => .ok (false, u1)
      | .err => .err
      | .ub => .ub

/-- The bytes of a buffer of the chain. -/
def chunkBytes (t : Track) : Chunk → Res (List UInt8)
  | .own b => .ok b
  | .ref k lo hi =>
    if k < t.base then .ub
    else match t.nodes[k - t.base]? with
      | none => .ub
      | some b => .ok ((b.take hi).drop lo)

/-- `b->pos += n`. -/
def advance : Chunk → Nat → Chunk
  | .own b, n => .own (b.drop n)
  | .ref k lo hi, n => .ref k (lo + n) hi

/-- `c->send_chain` when the socket takes at most `n` bytes: the bytes taken and the chain that is left. -/
def takeChunks (t : Track) : List Chunk → Nat → Res (List UInt8 × List Chunk)
  | [], _ => .ok ([], [])
  | c :: cs, n =>
    if n = 0 then .ok ([], c :: cs)
    else match chunkBytes t c with
      | .ok b =>
        if b.length ≤ n then
          match takeChunks t cs (n - b.length) with
          | .ok (r, rest) => .ok (b ++ r, rest)
          | .err => .err
          | .ub => .ub
        else .ok (b.take n, advance c n :: cs)
      | .err => .err
      | .ub => .ub

/-- What a socket does: takes at most so many bytes, or fails. -/
inductive Io where
  | room (n : Nat)
  | fail
deriving Repr, DecidableEq

/-- `ngx_kmp_out_upstream_send_chain` (ngx_kmp_out_upstream.c:1100-1175). `false`: NGX_ERROR. -/
def sendChain (t : Track) (u : Up) (io : Io) : Res (Bool × Up) :=
  if u.last then
    match io with
    | .fail => .ok (false, u)
    | .room n =>
      match takeChunks t u.busy n with
      | .ok (b, rest) =>
        let u1 := { u with wire := u.wire ++ b, busy := rest }
        if u1.policy = .lastAcked then .ok (true, u1) else ackAll t u1
      | .err => .err
      | .ub => .ub
  else .ok (true, u)

/-- `kmp_connect_packet_t` as sent on a new connection (ngx_kmp_out_upstream.c:1222-1226): the packet of the
track with the data size, and the ids of this upstream. -/
def connectPacket (connect : List UInt8) (dataLen frame upFrame offset : Nat) : List UInt8 :=
  connect.take 8 ++ bytesOf 4 dataLen ++ (connect.drop 12).take 68 ++ bytesOf 8 frame ++ bytesOf 8 upFrame ++
  bytesOf 4 offset ++ connect.drop 100

/-- The loop over the nodes in `ngx_kmp_out_upstream_send_buffered` (ngx_kmp_out_upstream.c:1279-1307): `n`
nodes from number `k`, the first from offset `lo`; the last node of the queue is the active one. -/
def refs (cap pos : Nat) : Nat → Nat → Nat → List Chunk
  | 0, _, _ => []
  | n + 1, k, lo =>
    let hi := if n = 0 then pos else cap
    (if hi ≤ lo then [] else [.ref k lo hi]) ++ refs cap pos n (k + 1) 0

/-- `ngx_kmp_out_upstream_send_buffered` (ngx_kmp_out_upstream.c:1204-1312). -/
def sendBuffered (t : Track) (u : Up) : Res Up :=
  if u.reader.node < t.base ∨ t.base + t.nodes.length ≤ u.reader.node then .ub
  else
    let cp := connectPacket t.connect u.connectData.length u.frame u.upFrame u.offset
    .ok { u with
      sentBase := (u.acked : Int) - u.wire.length - cp.length - u.connectData.length - u.info.length
      last := true
      busy := [.own cp] ++ (if u.connectData.isEmpty then [] else [.own u.connectData]) ++
        (if u.info.isEmpty then [] else [.own u.info]) ++
        refs t.cap t.pos (t.base + t.nodes.length - u.reader.node) u.reader.node u.reader.posOff }

/-- `ngx_kmp_out_upstream_error` (ngx_kmp_out_upstream.c:733-750): republish, or the upstream is removed. -/
def upError (t : Track) (u : Up) (allowed : Bool) : Res (Option Up) :=
  match republish t u allowed with
  | .ok (.ok, u1) => .ok (some u1)
  | .ok (_, _) => .ok none
  | .err => .err
  | .ub => .ub

/-- `ngx_kmp_out_upstream_write_handler` (ngx_kmp_out_upstream.c:1316-1361) without the timeout. -/
def writeHandler (t : Track) (u : Up) (io : Io) (allowed : Bool) : Res (Option Up) :=
  match (if u.last then .ok u else sendBuffered t u) with
  | .ok u1 =>
    match sendChain t u1 io with
    | .ok (true, u2) => .ok (some u2)
    | .ok (false, u2) => upError t u2 allowed
    | .err => .err
    | .ub => .ub
  | .err => .err
  | .ub => .ub

/-- `ngx_kmp_out_upstream_read_handler` (ngx_kmp_out_upstream.c:1048-1097): the bytes that have arrived, and
whether the peer has closed the connection behind them. -/
def readHandler (t : Track) (u : Up) (bytes : List UInt8) (closed allowed : Bool) : Res (Option Up) :=
  match recvLoop t (bytes.length + 2) u bytes with
  | .ok (ok, u1) => if ok && !closed then .ok (some u1) else upError t u1 allowed
  | .err => .err
  | .ub => .ub

/-- `ngx_kmp_out_upstream_append_buffer` (ngx_kmp_out_upstream.c:1364-1418); the request to republish is not
modelled. `err`: NGX_ERROR. -/
def appendBuffer (t : Track) (u : Up) : Res Up :=
  if u.last then
    .ok { u with busy := u.busy ++ [.ref (t.base + t.nodes.length - 1) t.pos t.last] }
  else if u.policy = .lastWritten then
    match ackAll t u with
    | .ok (true, u1) => .ok u1
    | .ok (false, _) => .err
    | .err => .err
    | .ub => .ub
  else .ok u

/-- A function on every upstream of the list, in order, until one fails. -/
def each (f : Up → Res Up) : List Up → Res (List Up)
  | [] => .ok []
  | u :: us =>
    match f u with
    | .ok u1 =>
      match each f us with
      | .ok us1 => .ok (u1 :: us1)
      | .err => .err
      | .ub => .ub
    | .err => .err
    | .ub => .ub

/-- The least acked frame id and its reader in `ngx_kmp_out_track_append_all`
(ngx_kmp_out_track.c:816-817, 831-834): the first of the smallest ids. -/
def minUsed : List Up → Nat → Option Stream → Option Stream
  | [], _, r => r
  | u :: us, m, r => if u.frame < m then minUsed us u.frame (some u.reader) else minUsed us m r

/-- `ngx_buf_queue_free` (ngx_buf_queue.c:177-252): nodes from the head are released up to the one that
contains the limit; the last one always stays. -/
def freeTo (cap : Nat) (limit : Stream) : Nat → List (List UInt8) → Nat × List (List UInt8)
  | b, x :: y :: rest =>
    if limit.posNode = b ∧ limit.posOff < cap then (b, x :: y :: rest) else freeTo cap limit (b + 1) (y :: rest)
  | b, l => (b, l)

/-- `ngx_buf_queue_free(&track->buf_queue, limit)`. -/
def freeBufs (t : Track) (limit : Stream) : Track :=
  let r := freeTo t.cap limit t.base t.nodes
  { t with base := r.1, nodes := r.2 }

/-- `ngx_kmp_out_track_append_all` (ngx_kmp_out_track.c:802-849). ULLONG_MAX is the first bound. -/
def appendAll (t : Track) : Res Track :=
  if t.last ≤ t.pos then .ok t
  else match each (appendBuffer t) t.ups with
    | .ok us =>
      let t1 := { t with ups := us, pos := t.last }
      match minUsed us 18446744073709551615 none with
      | some s => .ok (freeBufs t1 s)
      | none => .ok t1
    | .err => .err
    | .ub => .ub

/-- `ngx_kmp_out_upstream_send` (ngx_kmp_out_upstream.c:1178-1197). `err`: NGX_ERROR. -/
def sendUp (t : Track) (u : Up) (io : Io) (allowed : Bool) : Res Up :=
  if u.conn then
    match sendChain t u io with
    | .ok (true, u1) => .ok u1
    | .ok (false, u1) =>
      match republish t u1 allowed with
      | .ok (.ok, u2) => .ok u2
      | .ok (_, _) => .err
      | .err => .err
      | .ub => .ub
    | .err => .err
    | .ub => .ub
  else .ok u

/-- One upstream in the loop of `ngx_kmp_out_track_send_all` (ngx_kmp_out_track.c:868-878). -/
def sendOne (t : Track) (allowed : Bool) (u : Up) : Option Io → Res Up
  | some i => sendUp t u i allowed
  | none => .ok u

/-- The loop of `ngx_kmp_out_track_send_all` (ngx_kmp_out_track.c:865-879); an upstream without an entry is
not written to. -/
def sendEach (t : Track) (allowed : Bool) : List Up → List (Option Io) → Res (List Up)
  | [], _ => .ok []
  | us, [] => .ok us
  | u :: us, io :: ios =>
    match sendOne t allowed u io with
    | .ok u1 =>
      match sendEach t allowed us ios with
      | .ok us1 => .ok (u1 :: us1)
      | .err => .err
      | .ub => .ub
    | .err => .err
    | .ub => .ub

/-- `ngx_kmp_out_track_send_all` (ngx_kmp_out_track.c:852-882). -/
def sendAll (t : Track) (allowed : Bool) (ios : List (Option Io)) : Res Track :=
  if t.blocked then .ok t
  else match sendEach t allowed t.ups ios with
    | .ok us => .ok { t with ups := us }
    | .err => .err
    | .ub => .ub

/-- `ngx_kmp_out_track_min_acked_upstream` (ngx_kmp_out_track.c:919-938): the first upstream of the smallest
id, as its index. `i`: index of the head of the list; `m`: the best so far. -/
def minAcked : List Up → Nat → Option (Nat × Nat) → Option (Nat × Nat)
  | [], _, m => m
  | u :: us, i, none => minAcked us (i + 1) (some (i, u.frame))
  | u :: us, i, some (j, f) => if u.frame < f then minAcked us (i + 1) (some (i, u.frame)) else minAcked us (i + 1) (some (j, f))

/-- `ngx_kmp_out_track_free_bufs` (ngx_kmp_out_track.c:1027-1039). -/
def freeMin (t : Track) : Track :=
  match minAcked t.ups 0 none with
  | none => t
  | some (i, _) =>
    match t.ups[i]? with
    | none => t
    | some u => freeBufs t u.reader

/-- `ngx_kmp_out_track_mem_watermark` (ngx_kmp_out_track.c:1042-1077). Each entry of the list is a round of
the loop: what is missing to the watermark, and whether a republish is allowed. -/
def watermark (t : Track) : List (Nat × Bool) → Res Track
  | [] => .ok t
  | (left, allowed) :: rest =>
    match minAcked t.ups 0 none with
    | none => .ok t
    | some (i, _) =>
      match t.ups[i]? with
      | none => .ok t
      | some u =>
        match autoAck t u left allowed with
        | .ok (none, _) => .err
        | .ok (some n, u1) =>
          let t1 := { t with ups := t.ups.set i u1 }
          if n = 0 then .ok t1 else watermark (freeMin t1) rest
        | .err => .err
        | .ub => .ub

/-- `ngx_buf_queue_get` for the active buffer (ngx_kmp_out_track.c:1175-1186). What is in a new buffer is
never looked at. -/
def newNode (t : Track) : Track :=
  { t with nodes := t.nodes ++ [List.replicate t.cap 0], pos := 0, last := 0 }

/-- `active_buf->last = ngx_copy(active_buf->last, p, size)` (ngx_kmp_out_track.c:1159-1162). -/
def copyIn (t : Track) (b : List UInt8) : Track :=
  { t with
    nodes := match t.nodes.getLast? with
      | none => t.nodes
      | some n => t.nodes.dropLast ++ [BufStream.overwrite n t.last b]
    last := t.last + b.length
    written := t.written + b.length }

/-- The loop of `ngx_kmp_out_track_write_chain` for one buffer of the chain (ngx_kmp_out_track.c:1157-1187).
The first argument bounds the number of rounds. -/
def writeLoop : Nat → Track → List UInt8 → Res Track
  | 0, _, _ => .ub
  | fuel + 1, t, data =>
    if data.isEmpty then .ok t
    else
      let endOff := if t.nodes.isEmpty then 0 else t.cap
      let size := min (endOff - t.last) data.length
      let t1 := if size = 0 then t else copyIn t (data.take size)
      if endOff ≤ t1.last then
        match appendAll t1 with
        | .ok t2 => writeLoop fuel (newNode t2) (data.drop size)
        | .err => .err
        | .ub => .ub
      else writeLoop fuel t1 (data.drop size)

/-- The buffers of the chain (ngx_kmp_out_track.c:1132-1187). -/
def writeBufs : Track → List (List UInt8) → Res Track
  | t, [] => .ok t
  | t, b :: bs =>
    match writeLoop (b.length + 2) t b with
    | .ok t1 => writeBufs t1 bs
    | .err => .err
    | .ub => .ub

/-- What happens around one call of `ngx_kmp_out_track_write_chain`: the rounds of the watermark, what the
sockets do, whether a republish is allowed. -/
structure Env where
  wm      : List (Nat × Bool)
  ios     : List (Option Io)
  allowed : Bool
deriving Repr, DecidableEq

/-- `ngx_kmp_out_track_write_chain` (ngx_kmp_out_track.c:1112-1195). -/
def writeChain (t : Track) (e : Env) (bufs : List (List UInt8)) : Res Track :=
  match watermark t e.wm with
  | .ok t1 =>
    match writeBufs t1 bufs with
    | .ok t2 => sendAll t2 e.allowed e.ios
    | .err => .err
    | .ub => .ub
  | .err => .err
  | .ub => .ub

/-- Several calls of `ngx_kmp_out_track_write` / `_write_chain` in a row. -/
def writeAll : Track → List (Env × List (List UInt8)) → Res Track
  | t, [] => .ok t
  | t, (e, bufs) :: rest =>
    match writeChain t e bufs with
    | .ok t1 => writeAll t1 rest
    | .err => .err
    | .ub => .ub

/-- A packet that is written front to back: `ngx_kmp_out_track_write_media_info` (ngx_kmp_out_track.c:1213-1242),
`ngx_kmp_out_track_write_frame` (:1306-1350), the keepalive packet (:1509-1532), the end of stream (:1463-1489).
`frame`: `ngx_kmp_out_track_update_frame_stats` is called (:1271-1303). -/
def writePacket (t : Track) (calls : List (Env × List (List UInt8))) (frame : Bool) : Res Track :=
  match writeAll t calls with
  | .ok t1 => .ok (if frame then { t1 with lastFrame := t1.written } else t1)
  | .err => .err
  | .ub => .ub

/-- `ngx_kmp_out_track_flush` (ngx_kmp_out_track.c:885-901). -/
def flush (t : Track) (e : Env) : Res Track :=
  match appendAll t with
  | .ok t1 => sendAll t1 e.allowed e.ios
  | .err => .err
  | .ub => .ub

/-- `sizeof(kmp_frame_packet_t)`. -/
def framePacketLen : Nat := 40

/-- `ngx_kmp_out_track_write_frame_start`, `_data`, `_end` (ngx_kmp_out_track.c:1353-1460): a marker is set, a
header of zeros and the data are written while sending is blocked, then the header is written over the zeros.
`hdr` is the frame header with the data size filled in (:1419-1420). A marker in an empty queue is `ub`
(ngx_buf_queue_stream.c:23-30). -/
def writeMarked (t : Track) (e0 : Env) (calls : List (Env × List (List UInt8))) (hdr : List UInt8) (e : Env) : Res Track :=
  if t.nodes.isEmpty then .ub
  else
    let k := t.base + t.nodes.length - 1
    let marker : Stream := { node := k, posNode := k, posOff := t.last }
    match writeAll { t with blocked := true } ((e0, [List.replicate framePacketLen 0]) :: calls) with
    | .ok t1 =>
      if marker.node < t1.base then .ub
      else match BufStream.write t1.nodes (shift marker t1.base) hdr with
        | .ok (true, nodes, _) =>
          match sendAll { t1 with nodes, blocked := false } e.allowed e.ios with
          | .ok t2 => .ok { t2 with lastFrame := t2.written }
          | .err => .err
          | .ub => .ub
        | .ok (false, _, _) => .err
        | .err => .err
        | .ub => .ub
    | .err => .err
    | .ub => .ub

/-- `ngx_kmp_out_upstream_create` without source (ngx_kmp_out_upstream.c:135-197): from the head of the queue,
which must not be empty. -/
def createUp (t : Track) (policy : Policy) (connectData : List UInt8) : Res Up :=
  match t.nodes with
  | [] => .ub
  | _ :: _ =>
    .ok { policy, conn := false, last := false, busy := [], wire := [], sentBase := 0
          reader := { node := t.base, posNode := t.base, posOff := 0 }
          frame := field t.connect 80 8, upFrame := field t.connect 88 8, offset := 0, info := [], acked := 0
          noRepublish := false, connectData, recv := [] }

/-- `ngx_kmp_out_upstream_create` with a source (ngx_kmp_out_upstream.c:106-132). -/
def copyUp (src : Up) (policy : Policy) (connectData : List UInt8) : Up :=
  { policy, conn := false, last := false, busy := [], wire := [], sentBase := 0, reader := src.reader
    frame := src.frame, upFrame := src.upFrame, offset := src.offset, info := src.info, acked := src.acked
    noRepublish := false, connectData, recv := [] }

/-- `ngx_kmp_out_upstream_connect` (ngx_kmp_out_upstream.c:234-290): a new connection; the handlers run later. -/
def connectUp (u : Up) (connectData : List UInt8) : Up :=
  { u with conn := true, wire := [], recv := [], connectData }

/-- What can happen to a track. -/
inductive Op where
  /-- A packet is written front to back. -/
  | packet (calls : List (Env × List (List UInt8))) (frame : Bool)
  /-- A frame is written with a marker. -/
  | marked (e0 : Env) (calls : List (Env × List (List UInt8))) (hdr : List UInt8) (e : Env)
  /-- The flush timer, or the flush after the end of stream. -/
  | flush (e : Env)
  /-- An upstream is added from the head (`none`), or as a copy of upstream `src`. -/
  | add (src : Option Nat) (policy : Policy) (connectData : List UInt8)
  /-- An upstream is deleted. -/
  | del (i : Nat)
  /-- Upstream `i`, which has no connection, gets one. -/
  | connect (i : Nat) (connectData : List UInt8)
  /-- The socket of upstream `i` is writable. -/
  | writable (i : Nat) (io : Io) (allowed : Bool)
  /-- Bytes arrive for upstream `i`; the peer may have closed the connection. -/
  | readable (i : Nat) (bytes : List UInt8) (closed allowed : Bool)
  /-- The write timer of upstream `i` is over. -/
  | timeout (i : Nat) (allowed : Bool)

/-- Upstream `i` is replaced, or removed. -/
def putUp (t : Track) (i : Nat) : Option Up → Track
  | some u => { t with ups := t.ups.set i u }
  | none => { t with ups := t.ups.eraseIdx i }

/-- An event of upstream `i`; events come from connections only. -/
def onUp (t : Track) (i : Nat) (f : Up → Res (Option Up)) : Res Track :=
  match t.ups[i]? with
  | none => .ok t
  | some u =>
    if u.conn then (f u).map (putUp t i) else .ok t

/-- One event. `err`: the track has failed, nothing more is said about it. -/
def step (t : Track) : Op → Res Track
  | .packet calls frame => writePacket t calls frame
  | .marked e0 calls hdr e => writeMarked t e0 calls hdr e
  | .flush e => flush t e
  | .add none policy cd =>
    match createUp t policy cd with
    | .ok u => .ok { t with ups := t.ups ++ [u] }
    | .err => .err
    | .ub => .ub
  | .add (some i) policy cd =>
    match t.ups[i]? with
    | none => .ok t
    | some src => .ok { t with ups := t.ups ++ [copyUp src policy cd] }
  | .del i => .ok { t with ups := t.ups.eraseIdx i }
  | .connect i cd =>
    match t.ups[i]? with
    | none => .ok t
    | some u => if u.conn then .ok t else .ok { t with ups := t.ups.set i (connectUp u cd) }
  | .writable i io allowed => onUp t i (fun u => writeHandler t u io allowed)
  | .readable i bytes closed allowed => onUp t i (fun u => readHandler t u bytes closed allowed)
  | .timeout i allowed => onUp t i (fun u => upError t u allowed)

end Verif.KmpOut
