import Verif.Basic

/-!
# RTMP: reading messages from a connection

`ngx_rtmp_recv` and `ngx_rtmp_set_chunk_size` of nginx-rtmp-module/src/ngx_rtmp_handler.c.

Memory is modelled: buffers live in pools, a buffer of a destroyed pool must not be used, and the bytes that are left after a chunk
are read again from the buffer they are in, where they can have been overwritten. Allocations succeed. Not modelled: counters of bytes,
acks, pings, the dump file, logs. What the handlers of a message do is not modelled either, except that they can change the chunk
size (any number of times: an aggregate message can have many messages in it) or fail.
-/

namespace Verif.Rtmp

/-- `NGX_RTMP_MAX_CHUNK_HEADER`, ngx_rtmp.h:163-167. -/
def maxHeader : Nat := 18

/-- `NGX_RTMP_MAX_CHUNK_SIZE`, ngx_rtmp.h:143. -/
def maxChunk : Nat := 10485760

/-- `ngx_rtmp_type3_ext_ts_t`, ngx_rtmp.h:202-206. -/
inductive T3 where
  | off | on | auto
deriving DecidableEq, Repr

/-- `max_streams` and `max_message`, ngx_rtmp_core_module.c:268-272. -/
structure Cfg where
  maxStreams : Nat
  maxMessage : Nat

/-- `ngx_rtmp_header_t` without the id of the chunk stream (ngx_rtmp.h:170-176), and the fields of `ngx_rtmp_chunk_stream_t`
(ngx_rtmp.h:179-185). All are unsigned 32 bit numbers. -/
structure Hdr where
  timestamp : Nat := 0
  mlen : Nat := 0
  type : Nat := 0
  msid : Nat := 0
  dtime : Nat := 0
  len : Nat := 0
  ext : Bool := false
deriving DecidableEq, Repr

/-- A message, as the handlers get it: `data` are the buffers of the chain. -/
structure Msg where
  csid : Nat
  timestamp : Nat
  mlen : Nat
  type : Nat
  msid : Nat
  data : List (List UInt8)
deriving DecidableEq, Repr

/-- The memory of a buffer. -/
structure Buf where
  pool : Nat
  mem : List UInt8
deriving DecidableEq, Repr

/-- A link of a chain with its buffer: the memory, and `pos` and `last` relative to `start`. -/
structure Link where
  buf : Nat
  pos : Nat
  last : Nat
deriving DecidableEq, Repr

/-- `ngx_rtmp_chunk_stream_t`: `chain` is the circular list of complete chunks, oldest first. -/
structure Strm where
  h : Hdr := {}
  chain : List Link := []
deriving DecidableEq, Repr

/-- The fields of `ngx_rtmp_session_t` (ngx_rtmp.h:271-282) that are used for input, and the local variables `old_pos` and `old_size`
of `ngx_rtmp_recv`. `cur` is the buffer that is being filled: the code has it as the head of the list of chunk stream 0 when `in_csid`
is 0, and else as the newest buffer of the chunk stream. `free` is the rest of the list of chunk stream 0. -/
structure Sess where
  heap : List Buf
  /-- The pools that exist. -/
  live : List Nat
  /-- The number of pools that were created. -/
  npools : Nat
  cur : Option Link := none
  free : List Link := []
  streams : List Strm
  csid : Nat := 0
  chunk : Nat
  pool : Nat
  oldPool : Option Nat := none
  changing : Bool := false
  type3 : T3
  lastTs : Nat := 0
  /-- `old_pos`: a buffer and an offset. -/
  old : Option (Nat × Nat) := none
  oldSize : Nat := 0
  /-- The messages that were given to the handlers. -/
  log : List Msg := []
deriving DecidableEq, Repr

/-- What the handlers do with the last message of a list: fail, or set the chunk size. -/
abbrev Handler := List Msg → Option (List Nat)

/-! ## Memory -/

/-- Reads `n` bytes; undefined outside of the buffer or when its pool was destroyed. Not in the code: any access of a `u_char *`. -/
def Sess.rd (s : Sess) (b off n : Nat) : Res (List UInt8) :=
  match s.heap[b]? with
  | none => .ub
  | some m => if m.pool ∈ s.live ∧ off + n ≤ m.mem.length then .ok ((m.mem.drop off).take n) else .ub

/-- Writes bytes. Not in the code: `ngx_movemem`, `ngx_cpymem` and `c->recv`. -/
def Sess.wr (s : Sess) (b off : Nat) (bs : List UInt8) : Res Sess :=
  match s.heap[b]? with
  | none => .ub
  | some m =>
    if m.pool ∈ s.live ∧ off + bs.length ≤ m.mem.length then
      .ok { s with heap := s.heap.set b { m with mem := m.mem.take off ++ bs ++ m.mem.drop (off + bs.length) } }
    else .ub

/-- The contents of the buffers of a chain. -/
def Sess.rdAll (s : Sess) : List Link → Res (List (List UInt8))
  | [] => .ok []
  | l :: ls => s.rd l.buf l.pos (l.last - l.pos) >>= fun d => s.rdAll ls >>= fun ds => .ok (d :: ds)

/-- `ngx_rtmp_alloc_in_buf`, ngx_rtmp_handler.c:101-131. -/
def Sess.alloc (s : Sess) : Sess × Link :=
  ({ s with heap := s.heap ++ [⟨s.pool, List.replicate (s.chunk + maxHeader) 0⟩] }, ⟨s.heap.length, 0, 0⟩)

/-- The size of a buffer. -/
def Sess.cap (s : Sess) (b : Nat) : Nat :=
  match s.heap[b]? with
  | none => 0
  | some m => m.mem.length

/-! ## Changing the chunk size -/

/-- One buffer is copied, ngx_rtmp_handler.c:1011-1036. `lo` is the buffer that is being filled, `done` those before it. `fuel` is more
than the number of rounds. -/
def copyBuf : Nat → Sess → List Link → Link → List UInt8 → Res (Sess × List Link × Link)
  | 0, _, _, _, _ => .ub
  | fuel + 1, s, done, lo, bs =>
    if bs.length ≤ s.cap lo.buf - lo.last then
      s.wr lo.buf lo.last bs >>= fun s => .ok (s, done, { lo with last := lo.last + bs.length })
    else
      s.wr lo.buf lo.last (bs.take (s.cap lo.buf - lo.last)) >>= fun s' =>
        copyBuf fuel s'.alloc.1 (done ++ [{ lo with last := s.cap lo.buf }]) s'.alloc.2 (bs.drop (s.cap lo.buf - lo.last))

/-- The loop over the buffers of a chunk stream, ngx_rtmp_handler.c:1009-1036. -/
def copyChain (s : Sess) (done : List Link) (lo : Link) : List Link → Res (Sess × List Link)
  | [] => .ok (s, done ++ [lo])
  | l :: ls =>
    s.rd l.buf l.pos (l.last - l.pos) >>= fun bs =>
      copyBuf (bs.length + 2) s done lo bs >>= fun x => copyChain x.1 x.2.1 x.2.2 ls

/-- The loop over the chunk streams, ngx_rtmp_handler.c:989-1037. -/
def copyStreams (s : Sess) : List Strm → Res (Sess × List Strm)
  | [] => .ok (s, [])
  | st :: sts =>
    (if st.chain = [] then .ok (s, []) else copyChain s.alloc.1 [] s.alloc.2 st.chain) >>= fun x =>
      copyStreams x.1 sts >>= fun y => .ok (y.1, { st with chain := x.2 } :: y.2)

/-- `ngx_rtmp_set_chunk_size`, ngx_rtmp_handler.c:946-1040. A wrong size is ignored: the caller does not look at the result
(ngx_rtmp_receive.c:38-41). The session has a pool already (ngx_rtmp_init.c:220). -/
def setChunk (s : Sess) (size : Nat) : Res Sess :=
  if size < 1 ∨ size > maxChunk then .ok s
  else
    copyStreams { s with
      oldPool := some s.pool, chunk := size, pool := s.npools, npools := s.npools + 1, live := s.npools :: s.live
      changing := true, free := [] } s.streams >>= fun x => .ok { x.1 with streams := x.2 }

def setChunks (s : Sess) : List Nat → Res Sess
  | [] => .ok s
  | n :: ns => setChunk s n >>= fun s => setChunks s ns

/-- `ngx_rtmp_finalize_set_chunk_size`, ngx_rtmp_handler.c:1043-1052. -/
def finalize (s : Sess) : Sess :=
  if s.changing then
    match s.oldPool with
    | some p => { s with live := s.live.erase p, oldPool := none, changing := false }
    | none => s
  else s

/-! ## The header of a chunk -/

def beNum (bs : List UInt8) : Nat := bs.foldl (fun a b => a * 256 + b.toNat) 0

/-- The basic header, ngx_rtmp_handler.c:332-352: format, chunk stream, and size. -/
def basicHdr : List UInt8 → Option (Nat × Nat × Nat)
  | [] => none
  | b :: r =>
    if b.toNat % 64 = 0 then
      match r with
      | c :: _ => some (b.toNat / 64, 64 + c.toNat, 2)
      | _ => none
    else if b.toNat % 64 = 1 then
      match r with
      | c :: d :: _ => some (b.toNat / 64, 64 + c.toNat + 256 * d.toNat, 3)
      | _ => none
    else some (b.toNat / 64, b.toNat % 64, 1)

/-- The timestamp, and whether it is an extended one. -/
structure Stamp where
  ts : Nat
  ext : Bool
  size : Nat
deriving DecidableEq, Repr

/-- The message header, ngx_rtmp_handler.c:395-440. The fields of the chunk stream are written as soon as their bytes are there. -/
def msgHdr (fmt : Nat) (h : Hdr) (bs : List UInt8) : Hdr × Option Stamp :=
  if fmt ≤ 2 then
    match bs with
    | a :: b :: c :: r =>
      if fmt ≤ 1 then
        match r with
        | d :: e :: f :: t :: r =>
          if fmt = 0 then
            match r with
            | i :: j :: k :: l :: _ =>
              ({ h with mlen := beNum [d, e, f], type := t.toNat, msid := beNum [l, k, j, i] }, some ⟨beNum [a, b, c], beNum [a, b, c] == 0xffffff, 11⟩)
            | _ => ({ h with mlen := beNum [d, e, f], type := t.toNat }, none)
          else ({ h with mlen := beNum [d, e, f], type := t.toNat }, some ⟨beNum [a, b, c], beNum [a, b, c] == 0xffffff, 7⟩)
        | _ => (h, none)
      else (h, some ⟨beNum [a, b, c], beNum [a, b, c] == 0xffffff, 3⟩)
    | _ => (h, none)
  else (h, some ⟨h.dtime, h.ext, 0⟩)

/-- What is known after the header. -/
structure Head where
  h : Hdr
  type3 : T3
  lastTs : Nat
  size : Nat
deriving DecidableEq, Repr

/-- The extended timestamp, ngx_rtmp_handler.c:442-481: the timestamp, its size, and what is known about type 3 chunks after it.
`h` is the chunk stream. -/
def extHdr (fmt : Nat) (h : Hdr) (type3 : T3) (lastTs : Nat) (st : Stamp) (bs : List UInt8) : Option (Nat × Nat × T3 × Bool) :=
  if st.ext then
    match bs with
    | a :: b :: c :: d :: _ =>
      if type3 = .auto ∧ fmt > 2 then
        if beNum [a, b, c, d] ≠ lastTs then some (h.dtime, 0, .off, false) else some (beNum [a, b, c, d], 4, .on, h.ext)
      else some (beNum [a, b, c, d], 4, type3, h.ext)
    | _ => none
  else some (st.ts, 0, type3, h.ext)

/-- A new message, ngx_rtmp_handler.c:483-501. -/
def start (fmt : Nat) (h : Hdr) (ext : Bool) (type3 : T3) (lastTs ts size : Nat) : Head :=
  if h.len = 0 then
    if fmt ≠ 0 then ⟨{ h with ext := ext && type3 != .off, dtime := ts }, type3, ts, size⟩
    else ⟨{ h with ext := ext && type3 != .off, timestamp := ts, dtime := 0 }, type3, ts, size⟩
  else ⟨h, type3, lastTs, size⟩

/-- The header after the basic header, ngx_rtmp_handler.c:393-511; `n` is the size of the basic header and `bs` what follows it. When
more bytes are needed the fields of the chunk stream that were written stay. -/
def header (fmt n : Nat) (h : Hdr) (type3 : T3) (lastTs : Nat) (bs : List UInt8) : Hdr × Option Head :=
  match msgHdr fmt h bs with
  | (h', none) => (h', none)
  | (h', some st) =>
    match extHdr fmt h' type3 lastTs st (bs.drop st.size) with
    | none => (h', none)
    | some (ts, k, t3, e) => (h', some (start fmt { h' with ext := e } st.ext t3 lastTs ts (n + st.size + k)))

/-! ## The loop -/

/-- The buffer that is filled next, ngx_rtmp_handler.c:227-242. -/
def takeCur (s : Sess) : Sess × Link :=
  match s.cur with
  | some b => ({ s with cur := none }, b)
  | none =>
    match s.free with
    | b :: bs => ({ s with free := bs }, b)
    | [] => s.alloc

/-- The bytes that were left are copied to the buffer, ngx_rtmp_handler.c:244-271, or bytes `inp` are received to it,
ngx_rtmp_handler.c:273-326. The system returns no more bytes than there is room for. -/
def fill (s : Sess) (b : Link) (inp : List UInt8) : Res (Sess × Link) :=
  match s.old with
  | some (ob, off) =>
    if s.oldSize ≠ 0 then
      s.rd ob off (min (s.cap b.buf) s.oldSize) >>= fun bs =>
        s.wr b.buf 0 bs >>= fun s' =>
          if s.oldSize ≤ s.cap b.buf then
            .ok ({ (if s'.changing then finalize s' else s') with old := none, oldSize := 0 }, ⟨b.buf, 0, s.oldSize⟩)
          else .ok ({ s' with old := some (ob, off + s.cap b.buf), oldSize := s.oldSize - s.cap b.buf }, ⟨b.buf, 0, s.cap b.buf⟩)
    else s.wr b.buf 0 inp >>= fun s => .ok ({ s with old := none }, ⟨b.buf, 0, inp.length⟩)
  | none => s.wr b.buf b.last inp >>= fun s => .ok (s, { b with last := b.last + inp.length })

/-- `old_pos` and `old_size` after a chunk that leaves `extra` bytes of the buffer `b`, ngx_rtmp_handler.c:535-542, 549-556. -/
def keep (s : Sess) (b : Link) (extra : Nat) : Res Sess :=
  match s.old with
  | some (ob, off) =>
    if s.oldSize ≠ 0 then
      if off < extra then .ub else .ok { s with old := some (ob, off - extra), oldSize := s.oldSize + extra }
    else .ok { s with old := some (b.buf, b.last), oldSize := extra }
  | none => .ok { s with old := some (b.buf, b.last), oldSize := extra }

/-- After the handlers, ngx_rtmp_handler.c:568-579. -/
def after (s : Sess) (chain : List Link) : Sess :=
  if s.changing then (if s.oldSize = 0 then finalize s else s) else { s with free := chain ++ s.free }

/-- A message is complete, ngx_rtmp_handler.c:544-582. -/
def handle (H : Handler) (s : Sess) (st : Strm) (b : Link) (fsize : Nat) : Res Sess :=
  let b' := { b with last := b.pos + fsize }
  keep s b' (b.last - b.pos - fsize) >>= fun s =>
    s.rdAll (st.chain ++ [b']) >>= fun data =>
      let h := { st.h with len := 0, timestamp := (st.h.timestamp + st.h.dtime) % 2 ^ 32 }
      let log := s.log ++ [⟨s.csid, h.timestamp, h.mlen, h.type, h.msid, data⟩]
      match H log with
      | none => .err
      | some sizes =>
        setChunks { s with log, streams := s.streams.set s.csid ⟨h, []⟩, csid := 0 } sizes >>= fun s =>
          .ok (after s (st.chain ++ [b']))

/-- The rest of the bytes that a message needs. -/
def left (h : Hdr) : Nat := (h.mlen + 2 ^ 32 - h.len) % 2 ^ 32

/-- The data of a chunk, ngx_rtmp_handler.c:522-584. -/
def body (H : Handler) (s : Sess) (b : Link) : Res Sess :=
  match s.streams[s.csid]? with
  | none => .ub
  | some st =>
    if b.last - b.pos < min (left st.h) s.chunk then .ok { s with cur := some b }
    else if left st.h > s.chunk then
      let b' := { b with last := b.pos + s.chunk }
      keep s b' (b.last - b.pos - s.chunk) >>= fun s =>
        .ok { s with streams := s.streams.set s.csid ⟨{ st.h with len := (st.h.len + s.chunk) % 2 ^ 32 }, st.chain ++ [b']⟩, csid := 0 }
    else handle H s st b (left st.h)

/-- The header after the basic header, for the chunk stream of the session. -/
def headed (g : Cfg) (H : Handler) (s : Sess) (b : Link) (fmt n : Nat) (bs : List UInt8) : Res Sess :=
  match s.streams[s.csid]? with
  | none => .ub
  | some st =>
    match header fmt n st.h s.type3 s.lastTs (bs.drop n) with
    | (h, none) => .ok { s with streams := s.streams.set s.csid { st with h }, cur := some b }
    | (_, some hd) =>
      if hd.h.mlen > g.maxMessage then .err
      else body H { s with streams := s.streams.set s.csid { st with h := hd.h }, type3 := hd.type3, lastTs := hd.lastTs } { b with pos := hd.size }

/-- The header and the data of a chunk, ngx_rtmp_handler.c:328-584. -/
def parse (g : Cfg) (H : Handler) (s : Sess) (b : Link) : Res Sess :=
  if b.pos = 0 then
    s.rd b.buf 0 b.last >>= fun bs =>
      if bs = [] then .ub
      else
        match basicHdr bs with
        | none => .ok { s with cur := some b }
        | some (fmt, csid, n) =>
          if csid ≥ g.maxStreams then .err
          else headed g H (if s.csid = 0 then { s with csid } else s) b fmt n bs
  else body H s b

/-- One round of the loop of `ngx_rtmp_recv`, ngx_rtmp_handler.c:225-585. `inp` are the bytes that `c->recv` returns, when it is
called, which is when there are no bytes left. -/
def iter (g : Cfg) (H : Handler) (s : Sess) (inp : List UInt8) : Res Sess :=
  let x := takeCur s
  fill x.1 x.2 inp >>= fun y => parse g H y.1 y.2

/-- The room that `c->recv` is given. -/
def room (s : Sess) : Nat :=
  let x := takeCur s
  if s.old.isSome then x.1.cap x.2.buf else x.1.cap x.2.buf - x.2.last

/-- A new session, ngx_rtmp_init.c:206-221. -/
def newSess (g : Cfg) (type3 : T3) : Sess :=
  { heap := [], live := [0], npools := 1, streams := List.replicate g.maxStreams {}, chunk := 128, pool := 0, type3 }

end Verif.Rtmp
