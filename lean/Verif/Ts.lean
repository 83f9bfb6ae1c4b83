import Verif.Basic

/-!
# MPEG-TS: reading a stream

`ngx_ts_read` of nginx-mpegts-module/src/ngx_ts_stream.c and the functions it calls.

Buffers have a number each, and the lists of buffers of the code are lists of buffers here, with the contents of each: that a buffer is
never in two of the lists at once is proved (`Verif.TsProps`), so that the contents cannot change. Allocations from the pool succeed.
Not modelled: the PCR of a program and the `video` and `ptsf` flags (nothing reads them), the dump file, logs. What the handlers do is
not modelled here, except that they can fail. After an error nothing more is read: all callers end the session.
-/

namespace Verif.Ts

/-- `NGX_TS_PACKET_SIZE`, ngx_ts_stream.c:12. -/
def packetSize : Nat := 188

/-- A buffer, `ngx_buf_t`: `mem` is what was written from `start` to `last`, `pos` is relative to `start`. -/
structure Buf where
  id : Nat
  mem : List UInt8 := []
  pos : Nat := 0
deriving DecidableEq, Repr

/-- `ngx_ts_es_t`, ngx_ts_stream.h:55-68. `cont` is none for `NGX_TS_CC_UNSET`. The stream id is only kept in events. -/
structure Es where
  type : Nat
  pid : Nat
  info : List UInt8 := []
  cont : Option Nat := none
  pts : Nat := 0
  dts : Nat := 0
  rand : Bool := false
  corrupt : Bool := false
  bufs : List Buf := []
deriving DecidableEq, Repr

/-- `ngx_ts_program_t`, ngx_ts_stream.h:71-80. -/
structure Prog where
  number : Nat
  pid : Nat
  pcrPid : Nat := 0
  es : List Es := []
  bufs : List Buf := []
deriving DecidableEq, Repr

/-- What is given to the handlers, `ngx_ts_handler_data_t`, ngx_ts_stream.h:112-119: the programs (number, pid) of the PAT, the
streams (type, pid, info) of a program, or a PES packet. `bufs` are the buffers of a packet from the first byte after its header. -/
inductive Event where
  | pat (progs : List (Nat × Nat))
  | pmt (number : Nat) (es : List (Nat × Nat × List UInt8))
  | pes (pid sid pts dts : Nat) (rand : Bool) (bufs : List (List UInt8))
deriving DecidableEq, Repr

/-- The reasons for `NGX_ERROR`: the sync byte, the header of a packet, the limit of memory, a PAT or PMT, a PES packet, a handler. -/
inductive Fail where
  | sync | header | memory | table | pes | handler
deriving DecidableEq, Repr

/-- `ngx_ts_stream_t`, ngx_ts_stream.h:85-102. -/
structure St where
  progs : List Prog := []
  buf : Option Buf := none
  free : List Buf := []
  /-- The packets of the PAT. -/
  bufs : List Buf := []
  memLeft : Nat
  /-- The number of buffers that were created. -/
  made : Nat := 0
  /-- What was given to the handlers. -/
  log : List Event := []
  fail : Option Fail := none
deriving DecidableEq, Repr

/-- `ngx_ts_stream_create`, ngx_ts_stream.c:267-292. -/
def St.init (memLimit : Nat) : St := { memLeft := memLimit }

/-- The handlers: whether they accept the last of the events. -/
abbrev Handler := List Event → Bool

/-! ## Reading bytes from a chain -/

/-- `ngx_ts_byte_read_t` (ngx_ts_stream.c:21-24): what is left of the current buffer, and the buffers after it; empty when `cl` is
NULL. -/
abbrev Br := List (List UInt8)

/-- `ngx_ts_byte_read` and `ngx_ts_byte_read_skip`, ngx_ts_stream.c:213-242; none is `NGX_AGAIN`. -/
def rd : Br → Nat → Option (List UInt8 × Br)
  | br, 0 => some ([], br)
  | [], _ + 1 => none
  | c :: cs, n + 1 =>
    if n + 1 < c.length then some (c.take (n + 1), c.drop (n + 1) :: cs)
    else (rd cs (n + 1 - c.length)).map fun (b, r) => (c ++ b, r)

/-- `ngx_ts_byte_read8`, ngx_ts_stream.c:245-249. -/
def rd8 (br : Br) : Option (Nat × Br) :=
  match rd br 1 with
  | some ([a], r) => some (a.toNat, r)
  | _ => none

/-- `ngx_ts_byte_read16`, ngx_ts_stream.c:252-264. -/
def rd16 (br : Br) : Option (Nat × Br) :=
  match rd br 2 with
  | some ([a, b], r) => some (a.toNat * 256 + b.toNat, r)
  | _ => none

/-- `ngx_ts_byte_left`, ngx_ts_stream.c:193-210. -/
def left (br : Br) : Nat := (br.map List.length).sum

/-- `ngx_ts_byte_read_init`, ngx_ts_stream.c:185-190. -/
def chain (bufs : List Buf) : Br := bufs.map fun b => b.mem.drop b.pos

/-! ## The header of a packet -/

/-- The fields of `ngx_ts_header_t` that are used, ngx_ts_stream.c:27-35. -/
structure Hd where
  pusi : Bool
  rand : Bool
  cont : Nat
  pid : Nat
deriving DecidableEq, Repr

/-- A byte of a packet, undefined outside of it. Not in the code: `*p++`. -/
def byteAt (m : List UInt8) (i : Nat) : Res Nat :=
  match m[i]? with
  | some b => .ok b.toNat
  | none => .ub

/-- The header of a packet, or an error. -/
inductive HdRes where
  | bad (f : Fail)
  /-- `n` is the offset of the payload, none for `NGX_DONE`. -/
  | ok (h : Hd) (n : Option Nat)
deriving DecidableEq, Repr

/-- The PCR is read, ngx_ts_stream.c:552-572; only that it can be read. -/
def readPcr (m : List UInt8) (alen : Nat) : Res Bool :=
  if alen < 7 then .ok false
  else byteAt m 6 >>= fun _ => byteAt m 7 >>= fun _ => byteAt m 8 >>= fun _ => byteAt m 9 >>= fun _ => byteAt m 10 >>= fun _ =>
    byteAt m 11 >>= fun _ => .ok true

/-- The adaptation field, ngx_ts_stream.c:527-574. -/
def readAdapt (m : List UInt8) (h : Hd) (afic : Nat) : Res HdRes :=
  byteAt m 4 >>= fun alen =>
  if alen > 183 then .ok (.bad .header)
  else
    let n := if afic % 2 = 1 then some (4 + alen + 1) else none
    if alen = 0 then .ok (.ok h n)
    else byteAt m 5 >>= fun fl =>
      let h := { h with rand := fl / 64 % 2 = 1 }
      if fl / 16 % 2 = 1 then
        readPcr m alen >>= fun good => if good then .ok (.ok h n) else .ok (.bad .header)
      else .ok (.ok h n)

/-- `ngx_ts_read_header`, ngx_ts_stream.c:491-583. -/
def readHeader (m : List UInt8) : Res HdRes :=
  byteAt m 0 >>= fun b0 =>
  if b0 ≠ 0x47 then .ok (.bad .sync)
  else byteAt m 1 >>= fun b1 => byteAt m 2 >>= fun b2 => byteAt m 3 >>= fun b3 =>
    let h : Hd := { pusi := b1 / 64 % 2 = 1, rand := false, cont := b3 % 16, pid := b1 % 32 * 256 + b2 }
    let afic := b3 / 16 % 4
    if afic = 0 then .ok (.bad .header)
    else if afic / 2 = 1 then readAdapt m h afic
    else .ok (.ok h (some 4))

/-! ## Lists of buffers -/

/-- `ngx_ts_append_buf`, ngx_ts_stream.c:1580-1609, with `ngx_ts_free_buf` and `ngx_ts_free_chain`, 1547-1577: the new list, and the
new free list. -/
def appendBuf (h : Hd) (bufs free : List Buf) (b : Buf) : List Buf × List Buf :=
  if ¬ h.pusi ∧ bufs = [] then (bufs, b :: free)
  else if h.pusi ∧ bufs ≠ [] then ([b], bufs ++ free)
  else (bufs ++ [b], free)

/-! ## Tables -/

/-- What the reading of a table or of a PES packet comes to: more packets are needed, it is malformed, or the result. -/
inductive Got (α : Type) where
  | again
  | bad
  | ok (a : α)
deriving DecidableEq, Repr

/-- The start of a section, ngx_ts_stream.c:618-653 (PAT) and 733-767 (PMT): the length, and the reader after it. -/
def section_ (min : Nat) (br : Br) : Got (Nat × Br) :=
  match rd8 br with
  | none => .again
  | some (ptr, br) =>
    match rd br (ptr + 1) with
    | none => .again
    | some (_, br) =>
      match rd16 br with
      | none => .again
      | some (len, br) =>
        let len := len % 4096
        if len < min then .bad
        else if len > 0x3fd then .bad
        else
          match rd br len with
          | none => .again
          | some _ => .ok (len, br)

/-- The programs, ngx_ts_stream.c:671-691: the numbers and pids. The results of the reads are not checked: reading too far uses
variables that have no value. -/
def patProgs : Nat → Br → Res (List (Nat × Nat))
  | 0, _ => .ok []
  | n + 1, br =>
    match rd16 br with
    | none => .ub
    | some (number, br) =>
      match rd16 br with
      | none => .ub
      | some (pid, br) =>
        patProgs n br >>= fun ps => .ok (if number = 0 then ps else (number, pid % 8192) :: ps)

/-- `ngx_ts_read_pat`, ngx_ts_stream.c:618-693, from the pointer field. -/
def parsePat (br : Br) : Res (Got (List (Nat × Nat))) :=
  match section_ 9 br with
  | .again => .ok .again
  | .bad => .ok .bad
  | .ok (len, br) =>
    match rd br 5 with
    | none => .ub
    | some (_, br) => patProgs ((len - 9) / 4) br >>= fun ps => .ok (.ok ps)

/-- The streams of a program are counted, ngx_ts_stream.c:795-808; none is an error. `fuel` is at least the number of rounds. -/
def pmtCount : Nat → Nat → Br → Res (Option Nat)
  | _, 0, _ => .ok (some 0)
  | 0, _ + 1, _ => .ub
  | fuel + 1, len, br =>
    match rd br 3 with
    | none => .ok none
    | some (_, br) =>
      match rd16 br with
      | none => .ok none
      | some (elen, br) =>
        match rd br (elen % 4096) with
        | none => .ok none
        | some (_, br) =>
          if len < 5 + elen % 4096 then .ok none
          else pmtCount fuel (len - (5 + elen % 4096)) br >>= fun n => .ok (n.map (· + 1))

/-- The streams, ngx_ts_stream.c:818-863: type, pid, info. The results of the reads are not checked. -/
def pmtStreams : Nat → Br → Res (List (Nat × Nat × List UInt8))
  | 0, _ => .ok []
  | n + 1, br =>
    match rd8 br with
    | none => .ub
    | some (type, br) =>
      match rd16 br with
      | none => .ub
      | some (pid, br) =>
        match rd16 br with
        | none => .ub
        | some (elen, br) =>
          match rd br (elen % 4096) with
          | none => .ub
          | some (info, br) => pmtStreams n br >>= fun es => .ok ((type, pid % 8192, info) :: es)

/-- `ngx_ts_read_pmt`, ngx_ts_stream.c:733-863, from the pointer field: the pid of the PCR, and the streams. -/
def parsePmt (br : Br) : Res (Got (Nat × List (Nat × Nat × List UInt8))) :=
  match section_ 13 br with
  | .again => .ok .again
  | .bad => .ok .bad
  | .ok (len, br) =>
    match rd br 5 with
    | none => .ub
    | some (_, br) =>
      match rd16 br with
      | none => .ub
      | some (pcr, br) =>
        match rd16 br with
        | none => .ub
        | some (pilen, br) =>
          match rd br (pilen % 4096) with
          | none => .ok .bad
          | some (_, br) =>
            if len < 13 + pilen % 4096 then .ok .bad
            else
              pmtCount len (len - (13 + pilen % 4096)) br >>= fun n =>
              match n with
              | none => .ok .bad
              | some n => pmtStreams n br >>= fun es => .ok (.ok (pcr % 8192, es))

/-! ## PES packets -/

/-- The start of a PES packet, ngx_ts_stream.c:925-947: the stream id and the length. -/
def pesStart (br : Br) : Got (Nat × Nat × Br) :=
  match rd br 3 with
  | none => .again
  | some (pfx, br) =>
    if pfx ≠ [0, 0, 1] then .bad
    else
      match rd8 br with
      | none => .again
      | some (sid, br) =>
        match rd16 br with
        | none => .again
        | some (len, br) => .ok (sid, len, br)

/-- A time stamp of 33 bits, ngx_ts_stream.c:1002-1018 (also 1032-1047 and 1049-1064). -/
def rdTime (br : Br) : Option (Nat × Br) :=
  match rd8 br with
  | none => none
  | some (a, br) =>
    match rd16 br with
    | none => none
    | some (b, br) =>
      match rd16 br with
      | none => none
      | some (c, br) => some (a / 2 % 8 * 2 ^ 30 + b / 2 * 2 ^ 15 + c / 2, br)

/-- The streams of which the packets have no further header, ngx_ts_stream.c:965-971. -/
def plain (sid : Nat) : Bool := sid ∈ [0xbc, 0xbf, 0xf0, 0xf1, 0xff, 0xf2, 0xf8]

/-- The time stamps, ngx_ts_stream.c:999-1072; the outer none is `NGX_AGAIN`. -/
def pesTimes (flags : Nat) (br : Br) : Option (Option (Nat × Nat)) :=
  if flags / 64 % 4 = 2 then
    match rdTime br with
    | none => none
    | some (pts, _) => some (some (pts, pts))
  else if flags / 64 % 4 = 3 then
    match rdTime br with
    | none => none
    | some (pts, br) =>
      match rdTime br with
      | none => none
      | some (dts, _) => some (some (pts, dts))
  else some none

/-- The rest of the header, ngx_ts_stream.c:965-1073: the new time stamps, the length that is left, and the reader at the payload. -/
def pesBody (sid len : Nat) (br : Br) : Got (Option (Nat × Nat) × Nat × Br) :=
  if plain sid then .ok (none, len, br)
  else
    match rd16 br with
    | none => .again
    | some (flags, br) =>
      match rd8 br with
      | none => .again
      | some (hlen, br) =>
        if len ≠ 0 ∧ len < 3 + hlen then .bad
        else
          match rd br hlen with
          | none => .again
          | some (_, br') =>
            match pesTimes flags br with
            | none => .again
            | some t => .ok (t, if len = 0 then 0 else len - (3 + hlen), br')

/-- What becomes of a PES packet that is complete, because the next one starts. -/
inductive Flush where
  /-- Return `NGX_OK`, without a change: the header is not complete. -/
  | keep
  | bad
  /-- The buffers are freed, and the stream has the new times and `corrupt` is cleared; `ev` is given to the handlers before. -/
  | done (pts dts : Nat) (corrupt : Bool) (ev : Option Event)

/-- The recursive call of `ngx_ts_read_pes` with no buffer, ngx_ts_stream.c:923-1106. -/
def flush (e : Es) : Flush :=
  match pesStart (chain e.bufs) with
  | .again => .keep
  | .bad => .bad
  | .ok (sid, len, br) =>
    if sid = 0xbe then .done e.pts e.dts e.corrupt none
    else
      match pesBody sid len br with
      | .again => .keep
      | .bad => .bad
      | .ok (t, len, br) =>
        let pts := match t with | none => e.pts | some t => t.1
        let dts := match t with | none => e.dts | some t => t.2
        if e.corrupt ∨ (len ≠ 0 ∧ left br ≠ len) then .done pts dts false none
        else .done pts dts false (some (.pes e.pid sid pts dts e.rand br))

/-- The start of `ngx_ts_read_pes` when the next packet starts, ngx_ts_stream.c:899-903. The result: the stream, the free list, the
event, and whether there was an error. -/
def pesNext (e : Es) (h : Hd) (free : List Buf) : Es × List Buf × Option Event × Bool :=
  if h.pusi ∧ e.bufs ≠ [] then
    match flush e with
    | .keep => (e, free, none, false)
    | .bad => (e, free, none, true)
    | .done pts dts corrupt ev =>
      ({ e with pts := pts, dts := dts, corrupt := corrupt, bufs := [] }, e.bufs ++ free, ev, false)
  else (e, free, none, false)

/-- Whether the continuity counter is not the next one, ngx_ts_stream.c:914. -/
def skipped (cont : Option Nat) (c : Nat) : Bool :=
  match cont with
  | none => false
  | some l => c ≠ (l + 1) % 16

/-- `ngx_ts_read_pes` with a buffer, ngx_ts_stream.c:905-952: the stream, the free list, and whether there was an error. -/
def pesAdd (e : Es) (h : Hd) (free : List Buf) (b : Buf) : Es × List Buf × Bool :=
  let e := if e.bufs = [] then { e with rand := h.rand } else e
  let a := appendBuf h e.bufs free b
  ({ e with corrupt := e.corrupt || skipped e.cont h.cont, cont := some h.cont, bufs := a.1 }, a.2,
    match pesStart (chain a.1) with
    | .bad => true
    | _ => false)

/-! ## Packets -/

/-- `ngx_ts_run_handlers`, ngx_ts_stream.c:160-182. -/
def St.run (H : Handler) (s : St) (ev : Event) : St :=
  { s with log := s.log ++ [ev], fail := if H (s.log ++ [ev]) then s.fail else some .handler }

/-- The handlers are run if there is an event, ngx_ts_stream.c:1092-1101. -/
def St.runOpt (H : Handler) (s : St) : Option Event → St
  | none => s
  | some ev => s.run H ev

/-- `ngx_ts_read_pat`, ngx_ts_stream.c:591-700. -/
def St.readPat (H : Handler) (s : St) (h : Hd) (b : Buf) : Res St :=
  if s.progs ≠ [] then .ok { s with free := b :: s.free }
  else
    let a := appendBuf h s.bufs s.free b
    parsePat (chain a.1) >>= fun g =>
    match g with
    | .again => .ok { s with bufs := a.1, free := a.2 }
    | .bad => .ok { s with bufs := a.1, free := a.2, fail := some .table }
    | .ok ps =>
      let s := { s with progs := ps.map fun p : Nat × Nat => ({ number := p.1, pid := p.2 } : Prog) }
      let s := s.run H (.pat ps)
      if s.fail.isSome then .ok { s with bufs := a.1, free := a.2 }
      else .ok { s with bufs := [], free := a.1 ++ a.2 }

/-- Changes a program. Not in the code: writes through `prog`. -/
def St.setProg (s : St) (i : Nat) (p : Prog) : St := { s with progs := s.progs.set i p }

/-- `ngx_ts_read_pmt`, ngx_ts_stream.c:703-874. -/
def St.readPmt (H : Handler) (s : St) (i : Nat) (p : Prog) (h : Hd) (b : Buf) : Res St :=
  if p.es ≠ [] then .ok { s with free := b :: s.free }
  else
    let a := appendBuf h p.bufs s.free b
    parsePmt (chain a.1) >>= fun g =>
    match g with
    | .again => .ok { s.setProg i { p with bufs := a.1 } with free := a.2 }
    | .bad => .ok { s.setProg i { p with bufs := a.1 } with free := a.2, fail := some .table }
    | .ok (pcr, es) =>
      let p := { p with pcrPid := pcr, es := es.map fun e : Nat × Nat × List UInt8 => ({ type := e.1, pid := e.2.1, info := e.2.2 } : Es) }
      let s := s.run H (.pmt p.number es)
      if s.fail.isSome then .ok { s.setProg i { p with bufs := a.1 } with free := a.2 }
      else .ok { s.setProg i { p with bufs := [] } with free := a.1 ++ a.2 }

/-- `ngx_ts_read_pes`, ngx_ts_stream.c:877-1107. -/
def St.readPes (H : Handler) (s : St) (i : Nat) (p : Prog) (j : Nat) (e : Es) (h : Hd) (b : Buf) : St :=
  let n := pesNext e h s.free
  let s := s.runOpt H n.2.2.1
  let s := { s.setProg i { p with es := p.es.set j n.1 } with free := n.2.1 }
  let s := if n.2.2.2 then { s with fail := some .pes } else s
  if s.fail.isSome then s
  else
    let a := pesAdd n.1 h s.free b
    let s := { s.setProg i { p with es := p.es.set j a.1 } with free := a.2.1 }
    if a.2.2 then { s with fail := some .pes } else s

/-- What a pid is for. -/
inductive Target where
  | pmt (i : Nat) (p : Prog)
  | es (i : Nat) (p : Prog) (j : Nat) (e : Es)
deriving DecidableEq, Repr

/-- The loop over the streams of a program, ngx_ts_stream.c:466-472. -/
def findEs (pid : Nat) : Nat → List Es → Option (Nat × Es)
  | _, [] => none
  | j, e :: es => if pid = e.pid then some (j, e) else findEs pid (j + 1) es

/-- The loop over the programs, ngx_ts_stream.c:459-473. -/
def findPid (pid : Nat) : Nat → List Prog → Option Target
  | _, [] => none
  | i, p :: ps =>
    if pid = p.pid then some (.pmt i p)
    else
      match findEs pid 0 p.es with
      | some (j, e) => some (.es i p j e)
      | none => findPid pid (i + 1) ps

/-- `ngx_ts_read_packet`, ngx_ts_stream.c:431-488. -/
def St.readPacket (H : Handler) (s : St) (b : Buf) : Res St :=
  readHeader b.mem >>= fun r =>
  match r with
  | .bad f => .ok { s with fail := some f }
  | .ok h n =>
    let b := { b with pos := n.getD b.mem.length }
    if h.pid = 0 then s.readPat H h b
    else
      match findPid h.pid 0 s.progs with
      | some (.pmt i p) => s.readPmt H i p h b
      | some (.es i p j e) => .ok (s.readPes H i p j e h b)
      | none => .ok { s with free := b :: s.free }

/-! ## Bytes -/

/-- The buffer that is filled, ngx_ts_stream.c:377-407; none when the limit is reached. The buffer is taken out of `buf`. -/
def St.getBuf (s : St) : Option (Buf × St) :=
  match s.buf with
  | some b => some (b, { s with buf := none })
  | none =>
    match s.free with
    | b :: fs => some ({ id := b.id }, { s with free := fs })
    | [] =>
      if s.memLeft < packetSize then none
      else some ({ id := s.made }, { s with made := s.made + 1, memLeft := s.memLeft - packetSize })

/-- One buffer of the input, ngx_ts_stream.c:374-424. `fuel` is at least the number of rounds; a round in which no byte is taken would be
repeated without an end. -/
def St.readBuf (H : Handler) : Nat → St → List UInt8 → Res St
  | _, s, [] => .ok s
  | 0, _, _ :: _ => .ub
  | fuel + 1, s, x :: xs =>
    match s.getBuf with
    | none => .ok { s with fail := some .memory }
    | some (b, s) =>
      let n := min (packetSize - b.mem.length) (xs.length + 1)
      let b := { b with mem := b.mem ++ (x :: xs).take n }
      if b.mem.length = packetSize then
        s.readPacket H b >>= fun s => if s.fail.isSome then .ok s else St.readBuf H fuel s ((x :: xs).drop n)
      else St.readBuf H fuel { s with buf := some b } ((x :: xs).drop n)

/-- `ngx_ts_read`, ngx_ts_stream.c:360-428, for the buffers of a chain. -/
def St.read (H : Handler) : St → List (List UInt8) → Res St
  | s, [] => .ok s
  | s, c :: cs => if s.fail.isSome then .ok s else s.readBuf H c.length c >>= fun s => St.read H s cs

end Verif.Ts
