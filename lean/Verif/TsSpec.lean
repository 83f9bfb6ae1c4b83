/-!
# MPEG-TS: what a stream is

Packets, PES packets and tables as ISO/IEC 13818-1 defines them, written down from the standard and not from the code.
-/

namespace Verif.TsSpec

/-- A packet of the transport stream. `adapt` is the adaptation field without its length. -/
structure Packet where
  pid : Nat
  start : Bool := false
  cont : Nat
  prio : Bool := false
  adapt : Option (List UInt8) := none
  payload : List UInt8
deriving DecidableEq, Repr

/-- Two bytes, the higher one first. -/
def be16 (n : Nat) : List UInt8 := [UInt8.ofNat (n / 256), UInt8.ofNat (n % 256)]

/-- The adaptation field with its length. -/
def Packet.field (q : Packet) : List UInt8 :=
  match q.adapt with
  | none => []
  | some a => UInt8.ofNat a.length :: a

/-- The bytes of a packet (2.4.3.2). -/
def Packet.bytes (q : Packet) : List UInt8 :=
  [0x47, UInt8.ofNat ((if q.start then 64 else 0) + (if q.prio then 32 else 0) + q.pid / 256), UInt8.ofNat (q.pid % 256),
    UInt8.ofNat ((if q.adapt.isSome then 32 else 0) + (if q.payload = [] then 0 else 16) + q.cont)] ++ q.field ++ q.payload

/-- A packet has 188 bytes, and if there is a PCR in the adaptation field then all of it. -/
structure Packet.Ok (q : Packet) : Prop where
  pid : q.pid < 8192
  cont : q.cont < 16
  size : q.bytes.length = 188
  pcr : ∀ f t, q.adapt = some (f :: t) → f.toNat / 16 % 2 = 1 → 6 ≤ t.length

/-- The random access indicator. -/
def Packet.random (q : Packet) : Bool :=
  match q.adapt with
  | some (f :: _) => f.toNat / 64 % 2 = 1
  | _ => false

/-- A PES packet (2.4.3.6). `bounded` is whether its length is written. `flags` are the first byte of flags and the lower bits of the second. `extra` is the rest of its header. -/
structure Pes where
  sid : Nat
  bounded : Bool := true
  times : Option (Nat × Option Nat) := none
  flags : Nat × Nat := (0x80, 0)
  extra : List UInt8 := []
  payload : List UInt8
deriving DecidableEq, Repr

/-- padding_stream -/
def padding : Nat := 0xbe

/-- Whether the packets of a stream have nothing but a length before the data (table 2-18): program_stream_map, private_stream_2,
ECM_stream, EMM_stream, DSMCC_stream, ITU-T Rec. H.222.1 type E, program_stream_directory, padding_stream. -/
def Pes.short (p : Pes) : Bool :=
  p.sid = 0xbc || p.sid = 0xbf || p.sid = 0xf0 || p.sid = 0xf1 || p.sid = 0xf2 || p.sid = 0xf8 || p.sid = 0xff || p.sid = padding

/-- A time stamp of 33 bits, after four bits that say which one it is. -/
def timeBytes (mark t : Nat) : List UInt8 :=
  UInt8.ofNat (mark * 16 + t / 2 ^ 30 * 2 + 1) :: (be16 (t / 2 ^ 15 % 2 ^ 15 * 2 + 1) ++ be16 (t % 2 ^ 15 * 2 + 1))

/-- The time stamps. -/
def Pes.timeField (p : Pes) : List UInt8 :=
  match p.times with
  | none => []
  | some (t, none) => timeBytes 2 t
  | some (t, some d) => timeBytes 3 t ++ timeBytes 1 d

/-- PTS_DTS_flags -/
def Pes.timeFlags (p : Pes) : Nat :=
  match p.times with
  | none => 0
  | some (_, none) => 2
  | some (_, some _) => 3

/-- What comes after the length. -/
def Pes.rest (p : Pes) : List UInt8 :=
  (if p.short then []
    else [UInt8.ofNat p.flags.1, UInt8.ofNat (p.timeFlags * 64 + p.flags.2), UInt8.ofNat (p.timeField.length + p.extra.length)] ++
      p.timeField ++ p.extra) ++ p.payload

/-- The bytes of a PES packet. -/
def Pes.bytes (p : Pes) : List UInt8 :=
  [0, 0, 1, UInt8.ofNat p.sid] ++ be16 (if p.bounded then p.rest.length else 0) ++ p.rest

/-- The numbers fit into their fields. -/
structure Pes.Ok (p : Pes) : Prop where
  sid : p.sid < 256
  len : p.bounded → p.rest.length < 65536
  pts : ∀ t o, p.times = some (t, o) → t < 2 ^ 33
  dts : ∀ t d, p.times = some (t, some d) → d < 2 ^ 33
  flags : p.flags.1 < 256 ∧ p.flags.2 < 64
  head : p.timeField.length + p.extra.length < 256

/-- The times of a packet; a packet without them has those of the one before. -/
def Pes.stamp (p : Pes) (prev : Nat × Nat) : Nat × Nat :=
  if p.short then prev
  else
    match p.times with
    | none => prev
    | some (t, none) => (t, t)
    | some (t, some d) => (t, d)

/-- The packets `qs` carry the PES packet `p`: the first says that it starts, and all have a part of it. -/
structure Carries (p : Pes) (qs : List Packet) : Prop where
  start : ∃ q t, qs = q :: t ∧ q.start = true ∧ ∀ x ∈ t, x.start = false
  data : ∀ q ∈ qs, q.payload ≠ []
  bytes : (qs.map Packet.payload).flatten = p.bytes

/-- The continuity counters go up by one, from `c`. -/
def Counted : Nat → List Packet → Prop
  | _, [] => True
  | c, q :: qs => q.cont = c ∧ Counted ((c + 1) % 16) qs

/-- A PES packet as it is received: the stream id, the times, whether random access is possible, the data. -/
structure Received where
  sid : Nat
  pts : Nat
  dts : Nat
  random : Bool
  data : List UInt8
deriving DecidableEq, Repr

/-- What should be received for PES packets, each with the packets that carry it. Padding is not. -/
def expected : Nat × Nat → List (Pes × List Packet) → List Received
  | _, [] => []
  | prev, (p, qs) :: us =>
    (if p.sid = padding then []
      else [{ sid := p.sid, pts := (p.stamp prev).1, dts := (p.stamp prev).2, random := (qs.head?.map Packet.random).getD false,
              data := p.payload }]) ++ expected (p.stamp prev) us

/-- Packets that were sent, and those that arrive, when never more than 15 in a row are lost. The number is of those that were lost
before. -/
inductive Lossy : Nat → List Packet → List Packet → Prop where
  | nil (k : Nat) : Lossy k [] []
  | arrives {k : Nat} {q : Packet} {s r : List Packet} : Lossy 0 s r → Lossy k (q :: s) (q :: r)
  | lost {k : Nat} {q : Packet} {s r : List Packet} : k < 15 → Lossy (k + 1) s r → Lossy k (q :: s) r

/-- What is received is of the PES packet `p`: the stream id, the times if there are any, and the data, if their length is written, or
else the first part of the data. -/
structure Of (p : Pes) (r : Received) : Prop where
  sid : r.sid = p.sid
  times : ∃ prev, (r.pts, r.dts) = p.stamp prev
  first : r.data <+: p.payload
  whole : p.bounded = true → r.data = p.payload

/-! ## Tables -/

/-- A section as packets carry it (2.4.4.1, 2.4.4.10): the pointer, what it points over, the table id, the length, five bytes of which
nothing is used, the table, and the CRC; then anything. -/
structure Section where
  skip : List UInt8 := []
  table : UInt8
  five : List UInt8 := [0, 1, 0xc1, 0, 0]
  crc : List UInt8
  stuffing : List UInt8 := []

/-- A section, with its table. -/
def Section.bytes (x : Section) (data : List UInt8) : List UInt8 :=
  [UInt8.ofNat x.skip.length] ++ x.skip ++ [x.table] ++ be16 (0xb000 + (5 + data.length + 4)) ++ x.five ++ data ++ x.crc ++ x.stuffing

/-- The number of bytes until the end of the CRC. -/
def Section.size (x : Section) (data : List UInt8) : Nat := 1 + x.skip.length + 1 + 2 + 5 + data.length + 4

/-- Sections have up to 1021 bytes after the length. -/
structure Section.Ok (x : Section) (data : List UInt8) : Prop where
  skip : x.skip.length < 256
  five : x.five.length = 5
  crc : x.crc.length = 4
  size : 5 + data.length + 4 ≤ 1021

/-- The programs of a program association table: number and pid (2.4.4.3). A program with the number 0 is none: its pid is that of the
network information table. -/
def patData (ps : List (Nat × Nat)) : List UInt8 := ps.flatMap fun p => be16 p.1 ++ be16 (0xe000 + p.2)

/-- A program map table (2.4.4.8): the pid of the PCR, descriptors, and the streams, each with a type, a pid and descriptors. -/
structure Pmt where
  pcr : Nat
  info : List UInt8 := []
  streams : List (Nat × Nat × List UInt8)
deriving DecidableEq, Repr

/-- The streams. -/
def streamData (es : List (Nat × Nat × List UInt8)) : List UInt8 :=
  es.flatMap fun e => [UInt8.ofNat e.1] ++ be16 (0xe000 + e.2.1) ++ be16 (0xf000 + e.2.2.length) ++ e.2.2

/-- The bytes of a program map table. -/
def Pmt.data (m : Pmt) : List UInt8 := be16 (0xe000 + m.pcr) ++ be16 (0xf000 + m.info.length) ++ m.info ++ streamData m.streams

/-- The numbers fit into their fields. -/
structure Pmt.Ok (m : Pmt) : Prop where
  pcr : m.pcr < 8192
  streams : ∀ e ∈ m.streams, e.1 < 256 ∧ e.2.1 < 8192

/-- The packets `qs` of `pid` carry `bytes`, of which the `size`-th is in the last. -/
structure Brings (pid : Nat) (bytes : List UInt8) (size : Nat) (qs : List Packet) : Prop where
  ok : ∀ q ∈ qs, q.Ok ∧ q.pid = pid
  start : ∃ q t, qs = q :: t ∧ q.start = true ∧ ∀ x ∈ t, x.start = false
  bytes : (qs.map Packet.payload).flatten = bytes
  last : (qs.dropLast.map Packet.payload).flatten.length < size

end Verif.TsSpec
