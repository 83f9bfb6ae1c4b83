import Verif.PckgName

/-!
# What the names of files mean

A client takes a name from a playlist and asks for the file of this name in the directory of the playlist. The server decodes the
path: `%` with two hexadecimal digits stands for a byte (RFC 3986, 2.1), and a zero byte is refused, as by nginx.
-/

namespace Verif.PNameSpec

open Verif.PName (Bytes Name Handler Req)
open Verif.Sub (str)

/-- The value of a hexadecimal digit. -/
def unhex (c : UInt8) : Option Nat :=
  if 48 ≤ c ∧ c ≤ 57 then some (c.toNat - 48)
  else if 65 ≤ c ∧ c ≤ 70 then some (c.toNat - 55)
  else if 97 ≤ c ∧ c ≤ 102 then some (c.toNat - 87)
  else none

/-- Decoding of a path. -/
def pctDecode : Bytes → Option Bytes
  | [] => some []
  | c :: r =>
    if c = 37 then
      match r with
      | a :: b :: r =>
        match unhex a, unhex b with
        | some x, some y => if x * 16 + y = 0 then none else (pctDecode r).map (UInt8.ofNat (x * 16 + y) :: ·)
        | _, _ => none
      | _ => none
    else (pctDecode r).map (c :: ·)

/-- The request for a file of a directory. -/
def ask (dir name : Bytes) : Option (Handler × Req) := do
  let b ← pctDecode name
  PName.coreParse (dir ++ 47 :: b)

/-- Which code answers for segments with an extension, and the media types it gives when the name has none. -/
def container (ext : Bytes) : Option (Handler × Nat) :=
  if ext = str ".ts" then some (.ts, 3)
  else if ext = str ".m4s" then some (.m4s, 7)
  else if ext = str ".vtt" then some (.vtt, 4)
  else none

/-- How many media types a set has. -/
def card (m : Nat) : Nat := m % 2 + m / 2 % 2 + m / 4 % 2

/-- The media types of a name, when all of them stand for `a`. -/
def typesOf (m a : Nat) : Nat := if m = 7 then a else m

/-- What a name stands for. -/
def meaning (id : Bytes) (m : Nat) : Name → Option (Handler × Req)
  | .seg ext i => (container ext).map fun c => (c.1, { seg := i, variants := id, mask := typesOf m c.2, count := card (typesOf m c.2) })
  | .part ext i p => (container ext).map fun c =>
      (c.1, { seg := i, part := p, variants := id, mask := typesOf m c.2, count := card (typesOf m c.2) })
  | .init i => some (.mp4, { seg := i, variants := id, mask := m, count := card m })
  | .index => some (.index, { variants := id, mask := m, count := card m })
  | .keyChannel => some (.key, { mask := 3, count := 2 })
  | .keyType => some (.key, { mask := typesOf m 3, count := card (typesOf m 3) })
  | .keyVariant => some (.key, { variants := id, mask := 3, count := 2 })
  | .keyTrack => some (.key, { variants := id, mask := typesOf m 3, count := card (typesOf m 3) })

/-- Some media types, all of which are among `a`, or all types. -/
def Fits (m a : Nat) : Prop := m = 7 ∨ (0 < m ∧ m < 8 ∧ m &&& a = m)

/-- The names that a playlist with media types `m` has: the types fit to the container, parts are only of one track, indexes are
valid ones. -/
def Listed (m : Nat) : Name → Prop
  | .seg ext i => i < 2 ^ 32 - 1 ∧ ∃ c, container ext = some c ∧ Fits m c.2
  | .part ext i p => i < 2 ^ 32 - 1 ∧ p < 2 ^ 32 - 1 ∧ card m = 1 ∧ ∃ c, container ext = some c ∧ Fits m c.2
  | .init i => i < 2 ^ 32 - 1 ∧ Fits m 7
  | .index => Fits m 7
  | _ => Fits m 3

end Verif.PNameSpec
