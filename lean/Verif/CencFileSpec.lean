import Verif.Fmp4Spec

/-!
# Specification of common encryption

A reader of segments with the scheme `cenc` of ISO/IEC 23001-7, with initialization vectors of 8 bytes (as `tenc` gives). Of the
model nothing is used.
-/

namespace Verif.CencFileSpec

open Fmp4Spec (Bytes num slice Box allBoxes kind the Sample readSegment)

/-- Block `k` of the counter of a sample: the vector, and the number of the block in 8 bytes. -/
def counter (iv : Bytes) (k : Nat) : Bytes := iv ++ (List.range 8).map fun i => UInt8.ofNat (k / 256 ^ (7 - i))

/-- Byte `j` of the key stream of a sample. -/
def pad (E : Bytes → Bytes) (iv : Bytes) (j : Nat) : UInt8 := (E (counter iv (j / 16))).getD (j % 16) 0

/-- Bytes are combined with the key stream from `j` on. -/
def mask (E : Bytes → Bytes) (iv : Bytes) : Nat → Bytes → Bytes
  | _, [] => []
  | j, x :: b => (x ^^^ pad E iv j) :: mask E iv (j + 1) b

/-- Information on a sample: its vector, and its subsamples (bytes that are clear, and bytes that are encrypted after them) unless
all of it is encrypted. -/
structure Info where
  iv : Bytes
  subs : Option (List (Nat × Nat))
deriving Repr, DecidableEq

/-- The subsamples are decrypted; the key stream goes on over them. They must be all of the sample. -/
def decryptSubs (E : Bytes → Bytes) (iv : Bytes) : Nat → List (Nat × Nat) → Bytes → Option Bytes
  | _, [], b => if b = [] then some [] else none
  | j, (c, e) :: l, b =>
    if b.length < c + e then none
    else (decryptSubs E iv (j + e) l (b.drop (c + e))).map fun r => b.take c ++ mask E iv j (slice b c e) ++ r

/-- A sample is decrypted. -/
def decrypt (E : Bytes → Bytes) (i : Info) (b : Bytes) : Option Bytes :=
  match i.subs with
  | none => some (mask E i.iv 0 b)
  | some l => decryptSubs E i.iv 0 l b

/-- Subsamples: 2 bytes and 4 bytes each. -/
def readSubs : Nat → Bytes → Option (List (Nat × Nat) × Bytes)
  | 0, b => some ([], b)
  | n + 1, b =>
    if b.length < 6 then none
    else (readSubs n (b.drop 6)).map fun r => ((num (b.take 2), num (slice b 2 4)) :: r.1, r.2)

/-- Information on one sample, and what is after it. -/
def readInfo (subs : Bool) (b : Bytes) : Option (Info × Bytes) :=
  if b.length < 8 then none
  else if subs then
    if b.length < 10 then none
    else (readSubs (num (slice b 8 2)) (b.drop 10)).map fun r => (⟨b.take 8, some r.1⟩, r.2)
  else some (⟨b.take 8, none⟩, b.drop 8)

/-- Information on `n` samples, which must be all of the bytes. -/
def readInfos (subs : Bool) : Nat → Bytes → Option (List Info)
  | 0, b => if b = [] then some [] else none
  | n + 1, b => (readInfo subs b).bind fun r => (readInfos subs n r.2).map (r.1 :: ·)

/-- A box `senc`. -/
def readSenc (b : Bytes) : Option (List Info) :=
  if b.length < 8 ∨ num (b.take 1) ≠ 0 then none
  else readInfos ((num (slice b 1 3)).testBit 1) (num (slice b 4 4)) (b.drop 8)

/-- The place of the `moof`, and the boxes of its first `traf`. -/
def firstTraf (file : Bytes) : Option (Nat × List Box) := do
  let bs ← allBoxes 0 file
  let m ← the "moof" bs
  let ms ← allBoxes 0 m.body
  let t ← the "traf" ms
  let ts ← allBoxes 0 t.body
  some (m.pos, ts)

/-- What the box `senc` has on the samples of a segment. -/
def segmentInfos (file : Bytes) : Option (List Info) := do
  let (_, bs) ← firstTraf file
  let s ← the "senc" bs
  readSenc s.body

/-- Each sample is decrypted with its information. -/
def decryptAll (E : Bytes → Bytes) : List Sample → List Info → Option (List Sample)
  | [], [] => some []
  | s :: ss, i :: is => do
    let d ← decrypt E i s.data
    let r ← decryptAll E ss is
    some ({ s with data := d } :: r)
  | _, _ => none

/-- The samples of a segment of one track, decrypted. -/
def decryptSegment (E : Bytes → Bytes) (file : Bytes) : Option (List Sample) := do
  let ts ← readSegment file
  match ts with
  | [(_, ss)] => do
    let is ← segmentInfos file
    decryptAll E ss is
  | _ => none

/-! ## Information that is found by `saiz` and `saio` -/

/-- A box `saiz` without a type: the sizes of the information on samples. -/
def readSaiz (b : Bytes) : Option (List Nat) :=
  if b.length < 9 ∨ num (b.take 4) ≠ 0 then none
  else
    let n := num (slice b 5 4)
    if num (slice b 4 1) ≠ 0 then if b.length = 9 then some (List.replicate n (num (slice b 4 1))) else none
    else if b.length = 9 + n then some ((b.drop 9).map (·.toNat)) else none

/-- A box `saio` of version 0 without a type, with one place, which is relative to the `moof`. -/
def readSaio (b : Bytes) : Option Nat :=
  if b.length = 12 ∧ num (b.take 4) = 0 ∧ num (slice b 4 4) = 1 then some (num (slice b 8 4)) else none

/-- Information of some sizes from a place on. It has subsamples if it is longer than the vector. -/
def infosAt (file : Bytes) : Nat → List Nat → Option (List Info)
  | _, [] => some []
  | p, n :: l =>
    if file.length < p + n then none
    else do
      let (i, rest) ← readInfo (decide (8 < n)) (slice file p n)
      if rest ≠ [] then none
      else do
        let is ← infosAt file (p + n) l
        some (i :: is)

/-- The information on samples as `saiz` and `saio` give it. -/
def auxInfos (file : Bytes) : Option (List Info) := do
  let (moof, bs) ← firstTraf file
  let z ← the "saiz" bs
  let o ← the "saio" bs
  let ns ← readSaiz z.body
  let off ← readSaio o.body
  infosAt file (moof + off) ns

/-! ## What is to be encrypted -/

/-- The NAL units of a frame, each after its size in `nls` bytes. No unit is empty. The first argument bounds their number. -/
def nalUnits (nls : Nat) : Nat → Bytes → Option (List Bytes)
  | _, [] => some []
  | 0, _ :: _ => none
  | n + 1, b =>
    let k := num (b.take nls)
    if b.length < nls + k ∨ k = 0 then none else (nalUnits nls n (b.drop (nls + k))).map (slice b nls k :: ·)

/-- All NAL units of a frame. -/
def units (nls : Nat) (b : Bytes) : Option (List Bytes) := nalUnits nls b.length b

/-- The type of a NAL unit of H.264 is in the low 5 bits of its first byte; 1 to 5 are slices. -/
def avcSlice (u : Bytes) : Bool := let t := (u.headD 0).toNat % 32; decide (1 ≤ t ∧ t ≤ 5)

/-- The type of a NAL unit of H.265 is in bits 1 to 6 of its first byte; types below 32 are slices (VCL). -/
def hevcSlice (u : Bytes) : Bool := decide ((u.headD 0).toNat / 2 % 64 < 32)

/-- The subsamples of a frame: of a slice all but the size and the first byte is encrypted, of other units nothing. -/
def ranges (slices : Bytes → Bool) (nls : Nat) (us : List Bytes) : List (Nat × Nat) :=
  us.map fun u => if slices u then (nls + 1, u.length - 1) else (nls + u.length, 0)

/-- Vectors from a number on. -/
def vectors : Nat → Nat → List Bytes
  | _, 0 => []
  | v, n + 1 => (List.range 8).map (fun i => UInt8.ofNat (v / 256 ^ (7 - i))) :: vectors (v + 1) n

end Verif.CencFileSpec
