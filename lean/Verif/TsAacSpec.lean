import Verif.Basic

/-!
# Specification: ADTS frames (ISO/IEC 13818-7, 6.2)
-/

namespace Verif.AdtsSpec

/-- A frame: the fields of the header, the CRC if there is one, and the raw data. `blocks` is the number of raw data blocks less one. -/
structure Frame where
  id : Nat
  layer : Nat
  profile : Nat
  freq : Nat
  priv : Nat
  chan : Nat
  original : Nat
  home : Nat
  copyId : Nat
  copyStart : Nat
  full : Nat
  blocks : Nat
  crc : Option (UInt8 × UInt8)
  payload : List UInt8

/-- The bytes of the header with the CRC, and those of the frame. -/
def Frame.headerLen (f : Frame) : Nat := if f.crc.isSome then 9 else 7
def Frame.len (f : Frame) : Nat := f.headerLen + f.payload.length

/-- The fields have their widths, the frequency is one that exists, and the frame fits in its length field. -/
structure Frame.Valid (f : Frame) : Prop where
  id : f.id < 2
  layer : f.layer < 4
  profile : f.profile < 4
  freq : f.freq < 13
  priv : f.priv < 2
  chan : f.chan < 8
  original : f.original < 2
  home : f.home < 2
  copyId : f.copyId < 2
  copyStart : f.copyStart < 2
  full : f.full < 2048
  blocks : f.blocks < 4
  len : f.len < 8192

/-- A number that is written in a number of bits, after others. -/
def bits (n : Nat) (fs : List (Nat × Nat)) : Nat := fs.foldl (fun a f => a * 2 ^ f.1 + f.2) n

/-- The header as a number of 56 bits. -/
def Frame.header (f : Frame) : Nat :=
  bits 0 [(12, 0xfff), (1, f.id), (2, f.layer), (1, if f.crc.isSome then 0 else 1), (2, f.profile), (4, f.freq), (1, f.priv), (3, f.chan),
    (1, f.original), (1, f.home), (1, f.copyId), (1, f.copyStart), (13, f.len), (11, f.full), (2, f.blocks)]

def Frame.bytes (f : Frame) : List UInt8 :=
  [UInt8.ofNat (f.header / 2 ^ 48), UInt8.ofNat (f.header / 2 ^ 40), UInt8.ofNat (f.header / 2 ^ 32), UInt8.ofNat (f.header / 2 ^ 24),
    UInt8.ofNat (f.header / 2 ^ 16), UInt8.ofNat (f.header / 2 ^ 8), UInt8.ofNat f.header] ++
  (match f.crc with | some (a, b) => [a, b] | none => []) ++ f.payload

/-- The sampling frequencies (ISO/IEC 13818-7, table 35). -/
def rate : Nat → Nat
  | 0 => 96000 | 1 => 88200 | 2 => 64000 | 3 => 48000 | 4 => 44100 | 5 => 32000 | 6 => 24000 | 7 => 22050 | 8 => 16000 | 9 => 12000
  | 10 => 11025 | 11 => 8000 | 12 => 7350 | _ => 0

/-- The AudioSpecificConfig (ISO/IEC 14496-3, 1.6.2.1) of 16 bits: the object type, the frequency, the channels and three zero bits. -/
def config (f : Frame) : List UInt8 :=
  let n := bits 0 [(5, f.profile + 1), (4, f.freq), (4, f.chan), (3, 0)]
  [UInt8.ofNat (n / 256), UInt8.ofNat n]

end Verif.AdtsSpec
