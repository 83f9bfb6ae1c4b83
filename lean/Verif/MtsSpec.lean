import Verif.TsSpec
import Verif.TsNalSpec
import Verif.TsAacSpec

/-!
# What a segment of MPEG-TS has to be

From ISO/IEC 13818-1 and from what players need; independent of the model. `TsSpec` has packets and PES packets.
-/

namespace Verif.MtsSpec

open TsSpec (Packet Pes)

/-- Six bytes, the highest first. -/
def be48 (n : Nat) : List UInt8 :=
  [UInt8.ofNat (n / 2 ^ 40), UInt8.ofNat (n / 2 ^ 32), UInt8.ofNat (n / 2 ^ 24), UInt8.ofNat (n / 2 ^ 16), UInt8.ofNat (n / 2 ^ 8), UInt8.ofNat n]

/-- An adaptation field with a PCR (2.4.3.4): PCR_flag, 33 bits of the base, six reserved bits that are set, and an extension of zero. -/
def pcrField (base : Nat) : List UInt8 := 0x10 :: be48 (base % 2 ^ 33 * 2 ^ 15 + 0x3f * 2 ^ 9)

/-- The PES packet for data with a time to present and a time to decode. Only video has both. The times are those of the frame and 101 ms; the
data are aligned. The length is written if it fits in 16 bits. -/
def pes (video : Bool) (sid pts dts : Nat) (data : List UInt8) : Pes :=
  { sid := sid
    bounded := decide (3 + (if video then 10 else 5) + data.length < 65536)
    times := some ((pts + 9090) % 2 ^ 33, if video then some ((dts + 9090) % 2 ^ 33) else none)
    flags := (0x84, 0)
    payload := data }

/-- A packet without data, with a counter. -/
def filler (pid cc : Nat) : List UInt8 :=
  [0x47, UInt8.ofNat (pid / 256), UInt8.ofNat pid, UInt8.ofNat (48 + cc % 16), 183, 0] ++ List.replicate 182 0xff

/-- The pid of a packet. -/
def pidOf (p : List UInt8) : Nat := (p.getD 1 0).toNat % 32 * 256 + (p.getD 2 0).toNat

/-- The packets of a pid. -/
def ofPid (pid : Nat) (ps : List (List UInt8)) : List (List UInt8) := ps.filter fun p => pidOf p = pid

/-- The continuity counters of packets. -/
def counters (ps : List (List UInt8)) : List Nat := ps.map fun p => (p.getD 3 0).toNat % 16

/-! ## Video -/

/-- A number in `k` bytes, the highest first. -/
def bigEndian : Nat → Nat → List UInt8
  | 0, _ => []
  | k + 1, n => UInt8.ofNat (n / 256 ^ k) :: bigEndian k n

/-- A NAL unit after its length in `k` bytes (ISO/IEC 14496-15). -/
def lengthed (k : Nat) (n : List UInt8) : List UInt8 := bigEndian k n.length ++ n

/-- Whether a NAL unit is an access unit delimiter: type 9 of AVC, 35 of HEVC. -/
def delimiter (hevc : Bool) (n : List UInt8) : Bool :=
  if hevc then (n.headD 0).toNat / 2 % 64 = 35 else (n.headD 0).toNat % 32 = 9

/-- The zeros in the start codes: three before the first NAL unit, two before each other. -/
def marked : List (List UInt8) → List (Nat × List UInt8)
  | [] => []
  | n :: ns => (1, n) :: ns.map (0, ·)

/-- A frame of video: the delimiter, the parameter sets if it is a key frame, and the NAL units that are no delimiters. -/
def videoData (hevc : Bool) (extra : List UInt8) (key : Bool) (ns : List (List UInt8)) : List UInt8 :=
  (if hevc then [0, 0, 0, 1, 0x46, 1, 0x50] else [0, 0, 0, 1, 9, 0xf0]) ++ (if key then extra else []) ++
    NalSpec.stream (marked (ns.filter fun n => !delimiter hevc n))

/-! ## What is in the PES packets -/

/-- What a track is coded with: video with lengths of `k` bytes and parameter sets, AAC, audio that is written as it is, or text in ID3 tags. -/
inductive Codec where
  | video (hevc : Bool) (k : Nat) (extra : List UInt8)
  | aac (object rate chan : Nat)
  | raw
  | id3
deriving DecidableEq, Repr

/-- An ADTS frame of MPEG-4 with one block of raw data and a variable rate. -/
def adts (object rate chan : Nat) (data : List UInt8) : AdtsSpec.Frame :=
  { id := 0, layer := 0, profile := object - 1, freq := rate, priv := 0, chan := chan, original := 0, home := 0, copyId := 0, copyStart := 0,
    full := 0x7ff, blocks := 0, crc := none, payload := data }

/-- A number of 28 bits in four bytes of seven bits (ID3v2.4, 6.2). -/
def sevens (n : Nat) : List UInt8 := [UInt8.ofNat (n / 128 ^ 3 % 128), UInt8.ofNat (n / 128 ^ 2 % 128), UInt8.ofNat (n / 128 % 128), UInt8.ofNat (n % 128)]

/-- A frame of an ID3 tag (ID3v2.4, 4): the id, the size of what follows the ten bytes of the header, flags. -/
def id3Frame (id : List UInt8) (body : List UInt8) : List UInt8 := id ++ sevens body.length ++ [0, 0] ++ body

/-- An ID3v2.4 tag (3.1) with one TEXT frame of UTF-8. -/
def id3Tag (text : List UInt8) : List UInt8 :=
  let frame := id3Frame [0x54, 0x45, 0x58, 0x54] (3 :: text)
  [0x49, 0x44, 0x33, 4, 0, 0] ++ sevens frame.length ++ frame

/-- What a frame is in the stream. Zeros may follow the NAL units if lengths have four bytes. -/
def Coded (c : Codec) (key : Bool) (data out : List UInt8) : Prop :=
  match c with
  | .video hevc k extra => ∃ (ns : List (List UInt8)) (z : Nat), (∀ n ∈ ns, n ≠ [] ∧ n.length < 256 ^ k) ∧ data = (ns.map (lengthed k)).flatten ∧
      out = videoData hevc extra key ns ++ List.replicate z 0 ∧ (k ≠ 4 → z = 0)
  | .aac object rate chan => out = (adts object rate chan data).bytes
  | .raw => out = data
  | .id3 => out = id3Tag data

/-- A frame of a track. -/
structure Frame where
  duration : Nat
  delay : Nat
  key : Bool
  data : List UInt8

/-- A frame in the stream. -/
structure Sample where
  pts : Nat
  dts : Nat
  data : List UInt8

/-- The frames of a track from a time on, in the stream. -/
def Samples (c : Codec) : Nat → List Frame → List Sample → Prop
  | _, [], [] => True
  | t, f :: fs, s :: ss => s.dts = t ∧ s.pts = t + f.delay ∧ Coded c f.key f.data s.data ∧ Samples c (t + f.duration) fs ss
  | _, _, _ => False

/-- A PES packet for frames that follow each other: the times of the first, the data of all. -/
def groupPes (video : Bool) (sid : Nat) (g : List Sample) : Pes :=
  pes video sid (g.head?.map Sample.pts |>.getD 0) (g.head?.map Sample.dts |>.getD 0) (g.map Sample.data).flatten

/-- What is asked of the packets of a pid: they are those of PES packets, each of which has whole frames, one if `single`, in order, and then `n`
without data. The counters go up by one from `cc`. If `pcr` then each PES packet comes with a PCR, 50 ms before the time to decode its first
frame. -/
structure Carried (video single pcr : Bool) (pid sid cc : Nat) (samples : List Sample) (n : Nat) (groups : List (List Sample))
    (us : List (Pes × List Packet)) (ps : List (List UInt8)) : Prop where
  all : groups.flatten = samples
  parts : ∀ g ∈ groups, g ≠ [] ∧ (single = true → g.length = 1)
  pes : us.map Prod.fst = groups.map (groupPes video sid)
  carries : ∀ u ∈ us, u.1.Ok ∧ TsSpec.Carries u.1 u.2 ∧ ∀ q ∈ u.2, q.Ok ∧ q.pid = pid
  clock : pcr = true → ∀ (k : Nat) (g : List Sample) (u : Pes × List Packet), groups[k]? = some g → us[k]? = some u →
    ∃ (q : Packet) (s : Sample) (m : Nat), u.2.head? = some q ∧ g.head? = some s ∧ q.adapt = some (pcrField (s.dts + 4590) ++ List.replicate m 0xff)
  counted : TsSpec.Counted (cc % 16) (us.flatMap Prod.snd)
  bytes : ps = (us.flatMap Prod.snd).map Packet.bytes ++ (List.range n).map fun k => filler pid (cc + (us.flatMap Prod.snd).length + k)

/-- Whether the counters of packets go up by one, from `c`. -/
def Consecutive (c : Nat) (ps : List (List UInt8)) : Prop := counters ps = (List.range ps.length).map fun k => (c + k) % 16

/-! ## Tables -/

/-- One bit into the register of CRC_32 (ISO/IEC 13818-1, annex A). -/
def crcBit (r : BitVec 32) (b : Bool) : BitVec 32 := if r.msb != b then (r <<< 1) ^^^ 0x04c11db7#32 else r <<< 1

/-- The bits of a byte, the highest first. -/
def bitsOf (x : UInt8) : List Bool := [7, 6, 5, 4, 3, 2, 1, 0].map fun k => x.toNat.testBit k

/-- CRC_32: all bits of the register are set at first. -/
def crc (data : List UInt8) : BitVec 32 := (data.flatMap bitsOf).foldl crcBit 0xffffffff#32

/-- The packet with a section that fits in it, with the CRC of the section, filled with 0xff. -/
def tablePacket (pid cc : Nat) (table : UInt8) (data : List UInt8) : Packet :=
  let head := [table] ++ TsSpec.be16 (0xb000 + (5 + data.length + 4)) ++ [0, 1, 0xc1, 0, 0]
  { pid := pid
    start := true
    cont := cc
    payload := TsSpec.Section.bytes { table := table, crc := bigEndian 4 (crc (head ++ data)).toNat,
                                      stuffing := List.replicate (171 - data.length) 0xff } data }

end Verif.MtsSpec
