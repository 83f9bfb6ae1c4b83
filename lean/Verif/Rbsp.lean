import Verif.Basic

/-!
# Emulation prevention and bit streams of H.264 and H.265

Model of /repo/nginx-pckg-module/src/media/avc_hevc_parser.c, avc_hevc_parser.h, bit_read_stream.h and read_stream.h. Pointers two bytes before the end of a buffer of less than two bytes are not modelled.
-/

namespace Verif.Rbsp

/-! ## Emulation prevention -/

/-- The search for `00 00 03`, avc_hevc_parser.c:106-114. -/
def hasEsc : List UInt8 → Bool
  | a :: b :: c :: t => if a = 0 ∧ b = 0 ∧ c = 3 then true else hasEsc (b :: c :: t)
  | _ => false

/-- The copy, avc_hevc_parser.c:132-151. -/
def strip : List UInt8 → List UInt8
  | a :: b :: c :: t => if a = 0 ∧ b = 0 ∧ c = 3 then 0 :: 0 :: strip t else a :: strip (b :: c :: t)
  | l => l

/-- `avc_hevc_parser_emulation_prevention_decode`, avc_hevc_parser.c:92-155: what is read, and whether it is a copy. -/
def decode (b : List UInt8) : List UInt8 × Bool := if hasEsc b then (strip b, true) else (b, false)

/-- `avc_hevc_parser_emulation_prevention_encode_bytes`, avc_hevc_parser.c:72-90. -/
def count : List UInt8 → Nat
  | a :: b :: c :: t => if a = 0 ∧ b = 0 ∧ c ≤ 3 then 1 + count t else count (b :: c :: t)
  | _ => 0

/-- The size of a slice header, avc_parser.c:992-999 and hevc_parser.c:1934-1941: `h` is the size of the head of the unit, `b` the bytes after it, and `k` the number of bytes the parser has read. -/
def headerSize (h k : Nat) (b : List UInt8) : Nat := h + k + if (decode b).2 then count ((decode b).1.take k) else 0

/-! ## Bits -/

/-- `bit_reader_state_t`, bit_read_stream.h:8-12: the bytes to come, the current byte and bit, and whether the end was passed. -/
structure R where
  rest : List UInt8
  cur : UInt8
  bit : Int
  eof : Bool
deriving DecidableEq, Repr

/-- `bit_read_stream_init`, bit_read_stream.h:15-23. -/
def R.init (b : List UInt8) : R := ⟨b, 0, -1, false⟩

/-- `read_stream_get_byte`, read_stream.h:27-36, into the current byte. -/
def R.byte (r : R) : R :=
  match r.rest with
  | [] => { r with cur := 0, eof := true }
  | b :: t => { r with cur := b, rest := t }

/-- `read_stream_skip`, read_stream.h:56-68. -/
def R.skipBytes (r : R) (n : Nat) : R := if n > r.rest.length then { r with eof := true, rest := [] } else { r with rest := r.rest.drop n }

/-- The next byte, if all bits were read. -/
def R.fill (r : R) : R := if r.bit < 0 then { r.byte with bit := 7 } else r

/-- `bit_read_stream_get_one`, bit_read_stream.h:26-41. -/
def R.one (r : R) : Bool × R := (r.fill.cur.toNat.testBit r.fill.bit.toNat, { r.fill with bit := r.fill.bit - 1 })

/-- `bit_read_stream_get`, bit_read_stream.h:61-78; signed overflow is undefined. -/
def R.get : Nat → Nat → R → Res (Nat × R)
  | 0, acc, r => .ok (acc, r)
  | n + 1, acc, r => if 2 * acc + r.one.1.toNat ≥ 2 ^ 31 then .ub else R.get n (2 * acc + r.one.1.toNat) r.one.2

/-- A value in a `signed char`. -/
def s8 (x : Int) : Int := (x + 128) % 256 - 128

/-- `bit_read_stream_skip`, bit_read_stream.h:44-58. -/
def R.skip (n : Nat) (r : R) : R :=
  if s8 (r.bit - (n - 1)) < 0 then
    { (r.skipBytes ((-s8 (r.bit - (n - 1)) + 7) / 8 - 1).toNat).byte with bit := s8 (s8 (r.bit - (n - 1)) + 8 * ((-s8 (r.bit - (n - 1)) + 7) / 8)) - 1 }
  else { r with bit := s8 (r.bit - (n - 1)) - 1 }

/-- The zeros before a one, avc_hevc_parser.h:27 and 38. -/
def R.zeros : Nat → Nat → R → Res (Nat × R)
  | 0, _, _ => .ub
  | k + 1, z, r => if r.one.1 = false ∧ r.one.2.eof = false then R.zeros k (z + 1) r.one.2 else .ok (z, r.one.2)

/-- More than the bits there are. -/
def R.fuel (r : R) : Nat := 8 * r.rest.length + 16

/-- `bit_read_stream_skip_unsigned_exp`, avc_hevc_parser.h:22-30; also for signed values, :12. -/
def R.skipUe (r : R) : Res R := (r.zeros r.fuel 0).map fun x => x.2.skip x.1

/-- `bit_read_stream_get_unsigned_exp`, avc_hevc_parser.h:33-41; a shift by more than 30 is undefined. -/
def R.ue (r : R) : Res (Nat × R) := r.zeros r.fuel 0 >>= fun x => if x.1 > 30 then .ub else (R.get x.1 0 x.2).map fun y => (2 ^ x.1 - 1 + y.1, y.2)

/-- `bit_read_stream_get_signed_exp`, avc_hevc_parser.h:44-60. -/
def R.se (r : R) : Res (Int × R) := r.ue.map fun x => (if 0 < x.1 then if x.1 % 2 = 1 then ((x.1 : Int) + 1) / 2 else -((x.1 : Int) / 2) else x.1, x.2)

/-- What a parser does with an item. -/
inductive Op
  | get (n : Nat)
  | skip (n : Nat)
  | ue
  | se
  | skipUe
deriving DecidableEq, Repr

/-- One item; there is no value when it is skipped. -/
def Op.run : Op → R → Res (Option Int × R)
  | .get n, r => (R.get n 0 r).map fun x => (some x.1, x.2)
  | .skip n, r => .ok (none, r.skip n)
  | .ue, r => r.ue.map fun x => (some x.1, x.2)
  | .se, r => r.se.map fun x => (some x.1, x.2)
  | .skipUe, r => r.skipUe.map fun r => (none, r)

def runs : List Op → R → Res (List (Option Int) × R)
  | [], r => .ok ([], r)
  | o :: l, r => o.run r >>= fun x => (runs l x.2).map fun y => (x.1 :: y.1, y.2)

end Verif.Rbsp
