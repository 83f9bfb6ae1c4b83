import Verif.Rstream

/-!
# Model of nginx-common/src/ngx_persist_write.c

A buffer is the list of the bytes between `pos` and `last`. A byte is `none` as long as it was
reserved but not written. The output chain is the list of its buffers. `ctx->buf` is either empty
and not in the chain, or it is the last buffer of the chain ("buffers are appended to the chain as
soon as they get the first byte of data", ngx_persist_write.c:95-96); the model keeps this as a flag.
Simplifications: allocation does not fail; buffers given to the append functions keep their bytes;
the chain link after the last one is not readable (it is uninitialised or NULL): `ub`.
-/

namespace Verif.Persist

open Verif.Rstream (le32)

/-- A byte of the output; `none`: reserved, not written yet. -/
abbrev B := Option UInt8

/-- `NGX_PERSIST_WRITE_BUF_SIZE` (ngx_persist_write.c:8). -/
def bufSize : Nat := 2048

/-- `ngx_persist_write_marker_t` (ngx_persist_write.h:31-36): `idx` is the position in the chain of
`buf` (so `next` points to the link of number `idx + 1`), `off` is `pos - buf->pos`. -/
structure Marker where
  size : Nat
  idx  : Nat
  off  : Nat
deriving Repr, DecidableEq

/-- `ngx_persist_write_block_t` (ngx_persist_write.c:12-15); the field `header.size` is only set
when the block is closed. -/
structure Blk where
  marker : Marker
  id     : Nat
  hsize  : Nat
deriving Repr, DecidableEq

/-- `ngx_persist_write_ctx_t` (ngx_persist_write.c:18-34). `room` is `buf->end - buf->last`, `used`
tells `buf->last > buf->pos`; `blocks` are the open blocks, innermost first (`depth` of them).
`header` tells that the chain starts with a file header. -/
structure Ctx where
  out    : List (List B)
  room   : Nat
  used   : Bool
  size   : Nat
  header : Bool
  blocks : List Blk
deriving Repr, DecidableEq

/-- Put bytes at the end of the last buffer of the chain. -/
def extendLast : List (List B) → List B → List (List B)
  | [], bs => [bs]
  | [b], bs => [b ++ bs]
  | b :: b' :: rest, bs => b :: extendLast (b' :: rest) bs

/-- `ngx_persist_write_flush_buf` (ngx_persist_write.c:119-138). -/
def flushBuf (c : Ctx) : Ctx :=
  { c with room := if c.room = 0 then bufSize else c.room, used := false }

/-- `ngx_persist_write_append` (ngx_persist_write.c:141-164). -/
def append (c : Ctx) (bs : List B) : Ctx :=
  let c := { c with size := c.size + bs.length }
  let c := if c.used then flushBuf c else c
  { c with out := c.out ++ [bs] }

/-- The loop shared by `ngx_persist_write` (ngx_persist_write.c:190-212) and
`ngx_persist_write_reserve` (ngx_persist_write.c:243-263; there the bytes are not written). The
first argument bounds the rounds, running out is `ub` (shown impossible). -/
def fill : Nat → List (List B) → Nat → List B → Res (List (List B) × Nat)
  | 0, _, _, _ => .ub
  | fuel + 1, out, room, bs =>
    if bs.length ≤ room then .ok (extendLast out bs, room - bs.length)
    else fill fuel (extendLast out (bs.take room) ++ [[]]) bufSize (bs.drop room)

/-- Common part of the two functions: `if (b->last <= b->pos) append_buf`, then the loop. -/
def put (c : Ctx) (bs : List B) : Res Ctx :=
  let out := if c.used then c.out else c.out ++ [[]]
  match fill (bs.length + 2) out c.room bs with
  | .ok (out', room') => .ok { c with out := out', room := room', used := true, size := c.size + bs.length }
  | .err => .err
  | .ub => .ub

/-- `ngx_persist_write` (ngx_persist_write.c:167-215). -/
def write (c : Ctx) (bs : List B) : Res Ctx := if bs.length ≤ 0 then .ok c else put c bs

/-- `ngx_persist_write_reserve` (ngx_persist_write.c:218-266). `none`: size 0, the marker stays
uninitialised. -/
def reserve (c : Ctx) (n : Nat) : Res (Option Marker × Ctx) :=
  if n ≤ 0 then .ok (none, c)
  else
    let out := if c.used then c.out else c.out ++ [[]]
    let m : Marker := { size := c.size, idx := out.length - 1
                        off := match out.getLast? with | some b => b.length | none => 0 }
    match put c (List.replicate n none) with
    | .ok c' => .ok (some m, c')
    | .err => .err
    | .ub => .ub

/-- Overwrite the bytes of a buffer from `off`. -/
def overwrite (b : List B) (off : Nat) (bs : List B) : List B :=
  b.take off ++ bs ++ b.drop (off + bs.length)

/-- The loop of `ngx_persist_write_marker_write` (ngx_persist_write.c:281-301), on the part of the
chain that starts with the buffer of the marker. Result: this part of the chain, the number of links
followed and the new offset. -/
def markLoop : List (List B) → Nat → List B → Res (List (List B) × Nat × Nat)
  | [], _, _ => .ub
  | b :: rest, off, bs =>
    if b.length < off then .ub
    else
      let left := b.length - off
      if bs.length ≤ left then .ok (overwrite b off bs :: rest, 0, off + bs.length)
      else match markLoop rest 0 (bs.drop left) with
        | .ok (rest', k, off') => .ok (overwrite b off (bs.take left) :: rest', k + 1, off')
        | .err => .err
        | .ub => .ub

/-- `ngx_persist_write_marker_write` (ngx_persist_write.c:269-302). -/
def markerWrite (c : Ctx) (m : Marker) (bs : List B) : Res (Marker × Ctx) :=
  match markLoop (c.out.drop m.idx) m.off bs with
  | .ok (part, k, off) => .ok ({ m with idx := m.idx + k, off }, { c with out := c.out.take m.idx ++ part })
  | .err => .err
  | .ub => .ub

/-- `NGX_PERSIST_HEADER_FLAG_CONTAINER`, `_INDEX`, `_COMPRESSED` and `NGX_PERSIST_HEADER_SIZE_MASK`
(ngx_persist_format.h:12-16). -/
def flagContainer : Nat := 0x10000000
def flagIndex : Nat := 0x20000000
def flagCompressed : Nat := 0x40000000
def sizeMask : Nat := 0x0fffffff

/-- `NGX_PERSIST_MAX_BLOCK_DEPTH` (ngx_persist_format.h:19). -/
def maxDepth : Nat := 5

/-- `sizeof(ngx_persist_block_header_t)` (ngx_persist_format.h:38-42). -/
def blockHdr : Nat := 12

/-- `sizeof(ngx_persist_file_header_t)` (ngx_persist_format.h:27-35). -/
def fileHdr : Nat := 32

/-- Bytes of a `ngx_persist_block_header_t` (ngx_persist_format.h:38-42). -/
def encHdr (id size hsize : Nat) : List UInt8 := le32 id ++ le32 size ++ le32 hsize

/-- `ngx_persist_write_block_set_header` (ngx_persist_write.c:397-413). -/
def setHeader (c : Ctx) (flags : Nat) : Ctx :=
  match c.blocks with
  | [] => c
  | b :: rest =>
    if b.hsize ≠ 0 then c
    else { c with blocks := { b with hsize := ((c.size - b.marker.size) ||| flags) % 2 ^ 32 } :: rest }

/-- `ngx_persist_write_block_open` (ngx_persist_write.c:416-448). -/
def blockOpen (c : Ctx) (id : Nat) : Res Ctx :=
  if c.blocks.length ≥ maxDepth then .err
  else
    let c := setHeader c flagContainer
    match reserve c blockHdr with
    | .ok (some m, c') => .ok { c' with blocks := { marker := m, id, hsize := 0 } :: c'.blocks }
    | .ok (none, _) => .ub
    | .err => .err
    | .ub => .ub

/-- `ngx_persist_write_block_close` (ngx_persist_write.c:451-473). With no open block the C code
goes on with `blocks[-1]`: `ub`. -/
def blockClose (c : Ctx) : Res Ctx :=
  match c.blocks with
  | [] => .ub
  | b :: rest =>
    let hsize := if b.hsize = 0 then blockHdr else b.hsize
    match markerWrite c b.marker ((encHdr b.id (c.size - b.marker.size) hsize).map some) with
    | .ok (_, c') => .ok { c' with blocks := rest }
    | .err => .err
    | .ub => .ub

/-- `ngx_persist_write_block` (ngx_persist_write.c:476-494). `hsize` is what the caller put in
`header->header_size`. -/
def writeBlock (c : Ctx) (id hsize : Nat) (bs : List B) : Res Ctx :=
  let c := setHeader c flagContainer
  match write c ((encHdr id (blockHdr + bs.length) hsize).map some) with
  | .ok c' => write c' bs
  | .err => .err
  | .ub => .ub

/-- `ngx_persist_write_append_buf_chain` (ngx_persist_write.c:765-779). -/
def appendChain (c : Ctx) : List (List B) → Ctx
  | [] => c
  | b :: rest => appendChain (append c b) rest

/-- The loop of `ngx_persist_write_append_buf_chain_n` (ngx_persist_write.c:792-809). -/
def appendChainLoop (c : Ctx) : List (List B) → Nat → Res Ctx
  | [], _ => .ub
  | b :: rest, size =>
    if size ≤ b.length then .ok (append c (b.take size))
    else appendChainLoop (append c b) rest (size - b.length)

/-- `ngx_persist_write_append_buf_chain_n` (ngx_persist_write.c:782-812). `offset` beyond the first
node wraps around in C: `ub`. -/
def appendChainN (c : Ctx) (chain : List (List B)) (offset size : Nat) : Res Ctx :=
  match chain with
  | [] => .ub
  | b :: rest => if b.length < offset then .ub else appendChainLoop c (b.drop offset :: rest) size

/-- `ngx_persist_write_list_data` (ngx_persist_write.c:721-736). -/
def listData (c : Ctx) : List (List B) → Res Ctx
  | [] => .ok c
  | b :: rest => match write c b with
    | .ok c' => listData c' rest
    | .err => .err
    | .ub => .ub

/-- `ngx_persist_write_list_data_n` (ngx_persist_write.c:739-762). A part is the list of its
elements, an element the list of its bytes. Running out of parts dereferences NULL: `ub`. -/
def listDataN (c : Ctx) : List (List (List B)) → Nat → Res Ctx
  | [], _ => .ub
  | part :: rest, count =>
    if part.length ≥ count then write c (part.take count).flatten
    else match write c part.flatten with
      | .ok c' => listDataN c' rest (count - part.length)
      | .err => .err
      | .ub => .ub

/-- `ngx_persist_write_init` (ngx_persist_write.c:305-380). `type = 0`: no file header. `created` is
the clock (`ngx_time()`). Bytes 4..7 (`header->size`) are not initialised here. The compression level
only selects the function used at close. -/
def init (type created : Nat) : Ctx :=
  if type = 0 then
    { out := [], room := bufSize, used := false, size := 0, header := false, blocks := [] }
  else
    { out := [(le32 0x66706c6b).map some ++ List.replicate 4 none ++
              (le32 (fileHdr ||| flagContainer) ++ le32 0 ++ le32 10 ++ le32 type ++
               le32 created ++ le32 (created / 2 ^ 32)).map some]
      room := bufSize - fileHdr, used := true, size := fileHdr, header := true, blocks := [] }

/-- `ngx_persist_write_close` without compression (ngx_persist_write.c:660-686). Result: the chain
and its size. `err`: a block is still open, or the chain is empty (NULL is returned, which is also
the error return). -/
def close (c : Ctx) : Res (List (List B) × Nat) :=
  if c.blocks.length ≠ 0 then .err
  else
    let out := match c.header, c.out with
      | true, b :: rest => overwrite b 4 ((le32 c.size).map some) :: rest
      | _, out => out
    match out with
    | [] => .err
    | _ => .ok (out, c.size)

/-- `ngx_persist_write_chain` (ngx_persist_write.c:689-718), `ctx2` without compression. -/
def chain (c1 c2 : Ctx) : Res Ctx :=
  match close c2 with
  | .ok (cl, size) =>
    if size ≤ 0 then .ok c1
    else
      let c1 := if c1.used then flushBuf c1 else c1
      .ok { c1 with size := c1.size + size, out := c1.out ++ cl }
  | .err => .err
  | .ub => .ub

/-! ## Histories of calls -/

/-- One call of the writer. Markers are numbered in the order they were reserved. -/
inductive Op where
  | write (bs : List UInt8)
  | append (bs : List UInt8)
  | appendChain (ch : List (List UInt8))
  | appendChainN (ch : List (List UInt8)) (offset size : Nat)
  | listData (parts : List (List UInt8))
  | listDataN (parts : List (List (List UInt8))) (count : Nat)
  | reserve (n : Nat)
  | mark (k : Nat) (bs : List UInt8)
  | blockOpen (id : Nat)
  | setHeader (flags : Nat)
  | blockClose
  | block (id hsize : Nat) (bs : List UInt8)

/-- The context and the markers the caller holds. -/
abbrev World := Ctx × List (Option Marker)

/-- One call (see `Op`). Using a marker that does not exist or was not initialised is `ub`. -/
def step (w : World) : Op → Res World
  | .write bs => (write w.1 (bs.map some)).map (·, w.2)
  | .append bs => .ok (append w.1 (bs.map some), w.2)
  | .appendChain ch => .ok (appendChain w.1 (ch.map (·.map some)), w.2)
  | .appendChainN ch o n => (appendChainN w.1 (ch.map (·.map some)) o n).map (·, w.2)
  | .listData ps => (listData w.1 (ps.map (·.map some))).map (·, w.2)
  | .listDataN ps n => (listDataN w.1 (ps.map (·.map (·.map some))) n).map (·, w.2)
  | .reserve n => (reserve w.1 n).map fun r => (r.2, w.2 ++ [r.1])
  | .mark k bs => match w.2[k]? with
    | some (some m) => (markerWrite w.1 m (bs.map some)).map fun r => (r.2, w.2.set k (some r.1))
    | _ => .ub
  | .blockOpen id => (blockOpen w.1 id).map (·, w.2)
  | .setHeader f => .ok (setHeader w.1 f, w.2)
  | .blockClose => (blockClose w.1).map (·, w.2)
  | .block id hsize bs => (writeBlock w.1 id hsize (bs.map some)).map (·, w.2)

/-- All calls of a history. -/
def run : World → List Op → Res World
  | w, [] => .ok w
  | w, op :: ops => match step w op with
    | .ok w' => run w' ops
    | .err => .err
    | .ub => .ub

end Verif.Persist
