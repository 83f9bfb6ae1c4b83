import Verif.Rstream
import Verif.PersistWrite

/-!
# Model of nginx-common/src/ngx_persist_read.c, the reader loop of ngx_persist.c and the compressed
output of ngx_persist_write.c

The input is a list of bytes `m`, pointers are offsets into it (see `Verif.Rstream`). Simplifications:
allocation does not fail; zlib is an arbitrary function; return codes other than NGX_OK of a block
handler are one value.
-/

namespace Verif.Persist

open Verif.Rstream

/-- Copy of a 32 bit field at offset `p` (the `ngx_memcpy` calls of ngx_persist_read.c:24, 92, 172,
179, 187, 202). -/
def load32 (m : List UInt8) (p : Nat) : Res Nat := (load m p 4).bind ofLe32

/-- `NGX_PERSIST_FILE_MAGIC` and the versions (ngx_persist_format.h:9, 22-24). -/
def magic : Nat := 0x66706c6b
def minVersion : Nat := 9
def maxVersion : Nat := 10

/-- Return value of `ngx_persist_read_file_header`. -/
inductive FileRc where
  | ok (rs : Rs)
  | bad
  | declined
deriving Repr, DecidableEq

/-- `ngx_persist_read_file_header` (ngx_persist_read.c:9-77). -/
def readFileHeader (m : List UInt8) (type : Nat) : Res FileRc :=
  if m.length < fileHdr then .ok .bad
  else (load m 0 fileHdr).bind fun h =>
    (load32 h 0).bind fun hmagic => (load32 h 8).bind fun hsize =>
    (load32 h 16).bind fun hversion => (load32 h 20).bind fun htype =>
    if hmagic ≠ magic then .ok .bad
    else if htype ≠ type then .ok .bad
    else if hversion < minVersion then .ok .declined
    else if hversion > maxVersion then .ok .declined
    else if hsize &&& sizeMask < fileHdr then .ok .bad
    else if hsize &&& sizeMask > m.length then .ok .bad
    else .ok (.ok { pos := hsize &&& sizeMask, fin := m.length })

/-- `ngx_persist_read_inflate` (ngx_persist_read.c:80-155). `z room comp` is zlib's `uncompress`: the
bytes it delivers when it succeeds, into `room` bytes (writing more is `ub`). `pool` tells that memory
comes from a pool. Result: `none` for NGX_BAD_DATA, else the memory and stream to read from. When
`uncompress` fails the memory is given to `ngx_free`, which is undefined for pool memory. -/
def inflate (z : Nat → List UInt8 → Option (List UInt8)) (m : List UInt8) (maxSize : Nat) (rs : Rs)
    (pool : Bool) : Res (Option (List UInt8 × Rs)) :=
  (load m 0 fileHdr).bind fun h =>
  (load32 h 8).bind fun hsize => (load32 h 12).bind fun usize =>
  if hsize &&& flagCompressed = 0 then .ok (some (m, rs))
  else if usize < hsize &&& sizeMask then .ok none
  else if maxSize ≠ 0 ∧ usize > maxSize then .ok none
  else (load m (getLeft rs).1 (getLeft rs).2).bind fun comp =>
    match z (usize - (hsize &&& sizeMask)) comp with
    | none => if pool then .ub else .ok none
    | some p =>
      if p.length > usize - (hsize &&& sizeMask) then .ub
      else .ok (some (p, { pos := 0, fin := p.length }))

/-- `ngx_persist_read_block` (ngx_persist_read.c:158-192). Result: offset of the header and the
stream of the block, and the stream behind it. -/
def readBlock (m : List UInt8) (rs : Rs) : Res (Option (Nat × Rs) × Rs) :=
  match getPtr rs blockHdr with
  | (none, rs1) => .ok (none, rs1)
  | (some hdr, rs1) =>
    (load32 m (hdr + 4)).bind fun size =>
    if size < blockHdr then .ok (none, rs1)
    else match getStream rs1 (size - blockHdr) with
      | (none, rs2) => .ok (none, rs2)
      | (some block, rs2) => .ok (some (hdr, block), rs2)

/-- `ngx_persist_read_skip_block_header` (ngx_persist_read.c:195-225). `hdr` is the offset of the
header; the difference of the pointers is cut to 32 bits. -/
def skipHeader (m : List UInt8) (rs : Rs) (hdr : Nat) : Res (Bool × Rs) :=
  (load32 m (hdr + 8)).bind fun hsize =>
  if rs.pos < hdr then .ub
  else if hsize &&& sizeMask < (rs.pos - hdr) % 2 ^ 32 then .ok (false, rs)
  else if hsize &&& sizeMask > (rs.pos - hdr) % 2 ^ 32 then
    match getPtr rs ((hsize &&& sizeMask) - (rs.pos - hdr) % 2 ^ 32) with
    | (none, rs1) => .ok (false, rs1)
    | (some _, rs1) => .ok (true, rs1)
  else .ok (true, rs)

/-- The `read` handlers registered for block identifiers (ngx_persist.h). A handler gets the offset
of the header, the stream of the block and the state; `true` is NGX_OK. -/
abbrev Handler (S : Type) := Nat → Option (Nat → Rs → S → Res (Bool × S))

/-- `ngx_persist_conf_read_blocks` (ngx_persist.c:207-249). The hash lookup of nginx is a function.
`fuel` bounds the rounds, running out is `ub` (shown impossible). -/
def readBlocks {S : Type} (h : Handler S) (m : List UInt8) : Nat → Rs → S → Res (Bool × S)
  | 0, _, _ => .ub
  | fuel + 1, rs, s =>
    if eof rs then .ok (true, s)
    else match readBlock m rs with
      | .ok (none, _) => .ok (false, s)
      | .ok (some (hdr, block), rs1) =>
        match load32 m hdr with
        | .ok id => match h id with
          | none => readBlocks h m fuel rs1 s
          | some f => match f hdr block s with
            | .ok (true, s1) => readBlocks h m fuel rs1 s1
            | .ok (false, s1) => .ok (false, s1)
            | .err => .err
            | .ub => .ub
        | .err => .err
        | .ub => .ub
      | .err => .err
      | .ub => .ub

/-! ## A typical set of handlers -/

/-- What the handlers see, in order. -/
inductive Ev where
  | opened (id : Nat) (fields : List UInt8)
  | data (bs : List UInt8)
  | closed
deriving Repr, DecidableEq

/-- Blocks known in a context: the size of the structure at the start of the block that the handler
reads, and the context of the blocks inside (`none`: the rest is data). -/
abbrev Schema := Nat → Nat → Option (Nat × Option Nat)

/-- Handlers in the form used all over the code (for instance ngx_live_persist_index.c:425-475,
ngx_pckg_ksmp.c:385-425, ngx_live_segment_list.c:590-610): read a fixed structure, skip the rest of
the block header, then read the blocks inside or the data. The first argument bounds the nesting;
running out is `ub` (shown impossible). -/
def handlers (sc : Schema) (m : List UInt8) : Nat → Nat → Handler (List Ev)
  | 0, _ => fun _ => some fun _ _ _ => .ub
  | d + 1, ctx => fun id => match sc ctx id with
    | none => none
    | some (n, kids) => some fun hdr rs evs =>
      match read m rs n with
      | .ok (none, _) => .ok (false, evs)
      | .ok (some fields, rs1) =>
        match skipHeader m rs1 hdr with
        | .ok (false, _) => .ok (false, evs)
        | .ok (true, rs2) => match kids with
          | some ctx' =>
            match readBlocks (handlers sc m d ctx') m (m.length + 1) rs2 (evs ++ [.opened id fields]) with
            | .ok (true, evs1) => .ok (true, evs1 ++ [.closed])
            | .ok (false, evs1) => .ok (false, evs1)
            | .err => .err
            | .ub => .ub
          | none =>
            match load m (getLeft rs2).1 (getLeft rs2).2 with
            | .ok bs => .ok (true, evs ++ [.opened id fields, .data bs, .closed])
            | .err => .err
            | .ub => .ub
        | .err => .err
        | .ub => .ub
      | .err => .err
      | .ub => .ub

/-- Reading a whole file (ngx_live_persist.c:322-360, ngx_pckg_ksmp.c:1604-1640): header,
decompression, blocks of context `ctx`. `none`: not accepted. -/
def readFile (sc : Schema) (z : Nat → List UInt8 → Option (List UInt8)) (m : List UInt8)
    (type ctx maxSize : Nat) (pool : Bool) : Res (Option (List Ev)) :=
  match readFileHeader m type with
  | .ok (.ok rs) => match inflate z m maxSize rs pool with
    | .ok (some (m', rs')) =>
      match readBlocks (handlers sc m' (m'.length + 1) ctx) m' (m'.length + 1) rs' [] with
      | .ok (true, evs) => .ok (some evs)
      | .ok (false, _) => .ok none
      | .err => .err
      | .ub => .ub
    | .ok none => .ok none
    | .err => .err
    | .ub => .ub
  | .ok _ => .ok none
  | .err => .err
  | .ub => .ub

/-- `ngx_persist_write_deflate` (ngx_persist_write.c:511-657): the output as one byte string, made
from the uncompressed output `out` (32 bytes of header, then the blocks). `comp` are the bytes zlib
makes out of the blocks. Not modelled: the cutting of the output into buffers. -/
def deflated (out : List UInt8) (hsize : Nat) (comp : List UInt8) : List UInt8 :=
  out.take 4 ++ le32 (fileHdr + comp.length) ++ le32 (hsize ||| flagCompressed) ++ le32 out.length ++
    (out.take fileHdr).drop 16 ++ comp

end Verif.Persist
