import Verif.BufChain

/-!
# Model of nginx-kmp-in-module/src/ngx_kmp_in.c (receiving packets)

The bytes read from the socket come in pieces; every piece is processed when it is there. Packet data
is not copied: a packet is a chain of nodes that point into the input buffers. A node is modelled by
its number, address and the bytes it points to.

Simplifications: allocation does not fail; the counters for statistics, the dump file, timeouts and log
messages are not modelled; a handler of the application is a function of its state (it does not call
back into the receiver; acknowledgements are in `KmpInAck`). A handler that is NULL (`connect_data`) is
one that does nothing and returns `ok`.
-/

namespace Verif.KmpIn

open Verif.BufChain (copy skip)

/-- Little endian number (the fields of ngx_live_kmp.h are read in place on a little endian host). -/
def le (l : List UInt8) : Nat := l.foldr (fun b n => b.toNat + 256 * n) 0

/-- The field of `n` bytes at offset `o`. -/
def field (l : List UInt8) (o n : Nat) : Nat := le ((l.drop o).take n)

/-- Fields of `kmp_packet_header_t` (ngx_live_kmp.h:199-204). -/
def ptype (raw : List UInt8) : Nat := field raw 0 4
def hsize (raw : List UInt8) : Nat := field raw 4 4
def dsize (raw : List UInt8) : Nat := field raw 8 4

/-- Packet types (ngx_live_kmp.h:71-75) and limits (ngx_live_kmp.h:6-9). -/
def tConnect : Nat := 0x74636e63
def tMediaInfo : Nat := 0x666e696d
def tFrame : Nat := 0x6d617266
def tNull : Nat := 0x6c6c756e
def tEos : Nat := 0x74736f65
def maxHeader : Nat := 65536
def maxData : Nat := 16777216
def invalidFrame : Nat := 18446744073709551615

/-- Sizes of `kmp_packet_header_t`, `kmp_connect_packet_t`, `kmp_media_info_t` and `kmp_frame_t`. -/
def hdrLen : Nat := 16
def connectLen : Nat := 104
def mediaInfoLen : Nat := 32
def frameLen : Nat := 24

/-- Calls of the application (ngx_kmp_in.h:42-99). Structures are given by their bytes or fields, chains
by the bytes they point to. -/
inductive Event where
  | connected (header : List UInt8)
  | connectData (header data : List UInt8)
  | mediaInfo (info extra : List UInt8) (size : Nat)
  | frame (id created dts flags ptsDelay : Nat) (data : List UInt8) (size : Nat)
  | endStream
deriving Repr, DecidableEq

/-- Results of handlers (ngx_kmp_in.h:78-92). -/
inductive Rc where
  | ok | done | abort | error
deriving Repr, DecidableEq

/-- How the connection ends: NGX_KMP_IN_OK, NGX_KMP_IN_BAD_REQUEST, NGX_KMP_IN_INTERNAL_SERVER_ERROR
(ngx_kmp_in.c:10-13), or what the `connected` handler returned. -/
inductive Status where
  | ok | bad | internal | app
deriving Repr, DecidableEq

/-- The application: `connected` gives the number of frames to skip and the `skip_wait_key` flag, or
fails; `handle` answers all other events. -/
structure App (σ : Type) where
  connected : σ → List UInt8 → σ × Option (Nat × Bool)
  handle : σ → Event → σ × Rc

/-- `ngx_buf_chain_t`, with a number, and the bytes it points to. -/
structure Node where
  id : Nat
  addr : Nat
  bytes : List UInt8
deriving Repr, DecidableEq

/-- `ngx_kmp_in_ctx_t` (ngx_kmp_in.h:108-171). `buf` are the bytes in `connection->buffer`; `raw` is
`packet_header`, `part` the bytes of it that are there when it is being read (up to
`packet_header_pos`); `chain` are the nodes from `packet_data_first` to `packet_data_last` (none when
`packet_data_last` is NULL). Added to follow the nodes and events: `nextNode` (nodes allocated so far),
`freed` and `passed` (nodes given back, and given to the application), the application state `app` and
the events `log`. -/
structure Ctx (σ : Type) where
  headerRead : Bool
  buf : List UInt8
  raw : List UInt8
  part : List UInt8
  left : Nat
  chain : List Node
  skipLeft : Nat
  skipWaitKey : Bool
  waitKey : Bool
  timescale : Nat
  mediaType : Nat
  cur : Nat
  acked : Nat
  nextNode : Nat
  freed : List Nat
  passed : List Node
  app : σ
  log : List Event

/-- `ngx_kmp_in_create` (ngx_kmp_in.c:1107-1145). -/
def create {σ : Type} (s : σ) : Ctx σ :=
  { headerRead := false, buf := [], raw := [], part := [], left := 0, chain := [], skipLeft := 0,
    skipWaitKey := false, waitKey := false, timescale := 0, mediaType := 0, cur := 0, acked := 0,
    nextNode := 0, freed := [], passed := [], app := s, log := [] }

/-- The bytes a chain points to, node by node. -/
def datas (c : List Node) : List (List UInt8) := c.map (·.bytes)

/-- Call a handler. -/
def call {σ : Type} (a : App σ) (x : Ctx σ) (e : Event) : Ctx σ × Rc :=
  let r := a.handle x.app e
  ({ x with app := r.1, log := x.log ++ [e] }, r.2)

/-- `free_chain_list` of the whole chain, as in ngx_kmp_in.c:685-690. -/
def freeChain {σ : Type} (x : Ctx σ) : Ctx σ :=
  { x with freed := x.freed ++ x.chain.map (·.id), chain := [] }

/-- The application took the chain (`packet_data_last = NULL`). -/
def passChain {σ : Type} (x : Ctx σ) : Ctx σ :=
  { x with passed := x.passed ++ x.chain, chain := [] }

/-- `ngx_kmp_in_connect_data` (ngx_kmp_in.c:192-237). -/
def connectData {σ : Type} (a : App σ) (x : Ctx σ) : Ctx σ × Option Status :=
  let r := if hsize x.raw > connectLen then skip (datas x.chain) (hsize x.raw - connectLen)
    else (true, datas x.chain)
  if ¬ r.1 then (x, some .internal)
  else
    let (x1, rc) := call a x (.connectData x.buf r.2.flatten)
    match rc with
    | .ok => (x1, none)
    | .abort => (x1, some .internal)
    | _ => (x1, some .bad)

/-- `n` without the bytes in front of `b` (`data += size`, `size -= size` in `ngx_buf_chain_copy` and
`ngx_buf_chain_skip`). -/
def trim (n : Node) (b : List UInt8) : Node :=
  { n with addr := n.addr + (n.bytes.length - b.length), bytes := b }

/-- `ngx_kmp_in_copy_packet_header` (ngx_kmp_in.c:240-300). On success: the bytes of the structure; the
chain is what is behind the header, and the nodes before it are given back. -/
def copyHeader {σ : Type} (x : Ctx σ) (size : Nat) : Ctx σ × (Status ⊕ List UInt8) :=
  let headerLeft := hsize x.raw - hdrLen
  if headerLeft < size then (x, .inl .bad)
  else match copy (datas x.chain) size with
    | (none, _) => (x, .inl .internal)
    | (some bytes, d) =>
      let r := if headerLeft - size > 0 then skip d (headerLeft - size) else (true, d)
      if ¬ r.1 then (x, .inl .internal)
      else
        let used := x.chain.length - r.2.length
        ({ x with freed := x.freed ++ (x.chain.take used).map (·.id),
                  chain := (x.chain.drop used).zipWith trim r.2 },
          .inr bytes)

/-- `ngx_kmp_in_media_info` (ngx_kmp_in.c:303-356). -/
def mediaInfo {σ : Type} (a : App σ) (x : Ctx σ) : Ctx σ × Option Status :=
  match copyHeader x mediaInfoLen with
  | (x1, .inl st) => (x1, some st)
  | (x1, .inr info) =>
    if field info 8 4 ≤ 0 then (x1, some .bad)
    else
      let (x2, rc) := call a x1 (.mediaInfo info (datas x1.chain).flatten (dsize x1.raw))
      let set (x : Ctx σ) : Ctx σ := { x with timescale := field info 8 4, mediaType := field info 0 4,
                                              waitKey := field info 0 4 = 0 }
      match rc with
      | .ok => (set (passChain x2), none)
      | .done => (set x2, none)
      | .abort => (x2, some .internal)
      | .error => (x2, some .bad)

/-- `cur_frame_id++` (label `done` in ngx_kmp_in_frame). -/
def nextFrame {σ : Type} (x : Ctx σ) : Ctx σ := { x with cur := (x.cur + 1) % 2 ^ 64 }

/-- `ngx_kmp_in_frame` (ngx_kmp_in.c:359-504). KMP_MEDIA_SUBTITLE is 2, KMP_FRAME_FLAG_KEY is 1;
`pts_delay` is an int32. -/
def frame {σ : Type} (a : App σ) (x : Ctx σ) : Ctx σ × Option Status :=
  match copyHeader x frameLen with
  | (x1, .inl st) => (x1, some st)
  | (x1, .inr f) =>
    let flags := field f 16 4
    let pts := field f 20 4
    if x1.skipLeft > 0 then
      let x2 := { x1 with skipLeft := x1.skipLeft - 1 }
      (nextFrame (if x2.skipLeft ≤ 0 ∧ x2.skipWaitKey then { x2 with waitKey := false } else x2), none)
    else if x1.timescale ≤ 0 then (nextFrame x1, none)
    else if dsize x1.raw = 0 then (nextFrame x1, none)
    else if x1.mediaType = 2 ∧ (pts = 0 ∨ pts ≥ 2 ^ 31) then (nextFrame x1, none)
    else if x1.waitKey ∧ flags % 2 = 0 then (nextFrame x1, none)
    else
      let x2 := { x1 with waitKey := false }
      let (x3, rc) := call a x2 (.frame x2.cur (field f 0 8) (field f 8 8) (flags % 2) pts
        (datas x2.chain).flatten (dsize x2.raw))
      match rc with
      | .ok => (nextFrame (passChain x3), none)
      | .done => (nextFrame x3, none)
      | .abort => (x3, some .internal)
      | .error => (x3, some .bad)

/-- A complete packet (ngx_kmp_in.c:637-690). -/
def dispatch {σ : Type} (a : App σ) (x : Ctx σ) : Ctx σ × Option Status :=
  let t := ptype x.raw
  let r :=
    if t = tConnect then connectData a x
    else if t = tMediaInfo then mediaInfo a x
    else if t = tFrame then frame a x
    else if t = tNull then (x, none)
    else if t = tEos then ((call a x .endStream).1, some .ok)
    else (x, some .bad)
  match r with
  | (x1, none) => (freeChain x1, none)
  | (x1, some st) => (x1, some st)

/-- The checks of a packet header (ngx_kmp_in.c:542-579). -/
def headerOk (raw : List UInt8) : Bool :=
  (ptype raw = tConnect || ptype raw = tMediaInfo || ptype raw = tFrame || ptype raw = tNull ||
    ptype raw = tEos) &&
  hsize raw ≥ hdrLen && hsize raw ≤ maxHeader && dsize raw ≤ maxData

/-- Link packet data at address `addr` (ngx_kmp_in.c:589-619). -/
def link {σ : Type} (x : Ctx σ) (addr : Nat) (bytes : List UInt8) : Ctx σ :=
  match x.chain.getLast? with
  | some n =>
    if n.addr + n.bytes.length = addr then
      { x with chain := x.chain.dropLast ++ [{ n with bytes := n.bytes ++ bytes }] }
    else { x with chain := x.chain ++ [{ id := x.nextNode, addr := addr, bytes := bytes }], nextNode := x.nextNode + 1 }
  | none => { x with chain := [{ id := x.nextNode, addr := addr, bytes := bytes }], nextNode := x.nextNode + 1 }

/-- The second half of the loop in `ngx_kmp_in_process_buffer` (ngx_kmp_in.c:585-690): take packet data
from the buffer, whose `pos` is `addr`. `none` for the buffer: leave the loop (`break`). -/
def body {σ : Type} (a : App σ) (x : Ctx σ) (addr : Nat) (b : List UInt8) : Ctx σ × Option (List UInt8) × Option Status :=
  let size := min b.length x.left
  let x1 := if size > 0 then { link x addr (b.take size) with left := x.left - size } else x
  if x1.left > 0 then (x1, none, none)
  else match dispatch a x1 with
    | (x2, none) => (x2, some (b.drop size), none)
    | (x2, some st) => (x2, none, some st)

/-- `ngx_kmp_in_process_buffer` (ngx_kmp_in.c:507-694), with the bytes from `pos` to `last`, and the address
`pos`. The first argument bounds the rounds; running out gives `none` (shown impossible). -/
def process {σ : Type} (a : App σ) : Nat → Ctx σ → Nat → List UInt8 → Option (Ctx σ × Option Status)
  | 0, _, _, _ => none
  | _ + 1, x, _, [] => some (x, none)
  | k + 1, x, addr, c :: cs =>
    let b := c :: cs
    if x.left ≤ 0 then
      let headerLeft := hdrLen - x.part.length
      if b.length < headerLeft then some ({ x with part := x.part ++ b }, none)
      else
        let raw := x.part ++ b.take headerLeft
        let x1 := { x with raw := raw, part := [] }
        if ¬ headerOk raw then some (x1, some .bad)
        else match body a { x1 with left := hsize raw + dsize raw - hdrLen } (addr + headerLeft) (b.drop headerLeft) with
          | (x2, some b2, _) => process a k x2 (addr + (b.length - b2.length)) b2
          | (x2, none, st) => some (x2, st)
    else match body a x addr b with
      | (x2, some b2, _) => process a k x2 (addr + (b.length - b2.length)) b2
      | (x2, none, st) => some (x2, st)

/-- `ngx_kmp_in_read_header` (ngx_kmp_in.c:896-1037), after `bytes` were received. -/
def readHeader {σ : Type} (a : App σ) (x : Ctx σ) (bytes : List UInt8) : Ctx σ × Option Status :=
  let x := { x with buf := x.buf ++ bytes }
  if x.buf.length < connectLen then (x, none)
  else if ptype x.buf ≠ tConnect then (x, some .bad)
  else if hsize x.buf < connectLen ∨ hsize x.buf > maxHeader then (x, some .bad)
  else if dsize x.buf > maxData then (x, some .bad)
  else if field x.buf 80 8 ≥ invalidFrame then (x, some .bad)
  else match a.connected x.app x.buf with
    | (s, none) => ({ x with app := s, log := x.log ++ [.connected x.buf] }, some .app)
    | (s, some (count, wait)) =>
      let x := { x with app := s, log := x.log ++ [.connected x.buf], part := [],
                        left := hsize x.buf + dsize x.buf - connectLen, raw := x.buf.take hdrLen,
                        skipLeft := count, skipWaitKey := wait, headerRead := true }
      let r := if x.left ≤ 0 then connectData a x else (x, none)
      match r with
      | (x1, some st) => (x1, some st)
      | (x1, none) => ({ x1 with cur := field x.buf 80 8, acked := field x.buf 80 8 }, none)

/-- One successful `recv` with the processing behind it (ngx_kmp_in_read_handler, ngx_kmp_in.c:1040-1104,
and ngx_kmp_in_read_packets, ngx_kmp_in.c:697-748). While the connect packet is being read, `recv` gets
at most what is left of it. -/
def receive {σ : Type} (a : App σ) (x : Ctx σ) (addr : Nat) (bytes : List UInt8) : Option (Ctx σ × Option Status) :=
  if ¬ x.headerRead then some (readHeader a x bytes)
  else process a (bytes.length + 1) x addr bytes

/-- A connection: pieces, with the address where they are stored, are received until it ends. -/
def run {σ : Type} (a : App σ) : Ctx σ → List (Nat × List UInt8) → Option (Ctx σ × Option Status)
  | x, [] => some (x, none)
  | x, (addr, bytes) :: rest =>
    (receive a x addr bytes).bind fun r => match r.2 with
      | some st => some (r.1, some st)
      | none => run a r.1 rest

/-- `ngx_kmp_in_cleanup` (ngx_kmp_in.c:138-160): the nodes of an unfinished packet are given back. -/
def cleanup {σ : Type} (x : Ctx σ) : Ctx σ := freeChain x

end Verif.KmpIn
