/-!
# Specification of fragments of MP4

A reader of movie fragments as ISO/IEC 14496-12 has them. Nothing of the model is used.
-/

namespace Verif.Fmp4Spec

abbrev Bytes := List UInt8

/-- A number, most significant byte first. -/
def num (b : Bytes) : Nat := b.foldl (fun n x => n * 256 + x.toNat) 0

/-- The `n` bytes from `i` on. -/
def slice (b : Bytes) (i n : Nat) : Bytes := (b.drop i).take n

/-- A box: its place, its type, and its content. -/
structure Box where
  pos : Nat
  kind : Bytes
  body : Bytes
deriving Repr, DecidableEq

/-- The boxes of some bytes, the first of which is at `pos`; `none` if the bytes are no sequence of boxes. Boxes
with a 64 bit size or without a size are not read. The first argument bounds the number of boxes. -/
def boxes : Nat → Nat → Bytes → Option (List Box)
  | _, _, [] => some []
  | 0, _, _ :: _ => none
  | n + 1, pos, b =>
    let size := num (b.take 4)
    if size < 8 ∨ b.length < size then none
    else (boxes n (pos + size) (b.drop size)).map (⟨pos, slice b 4 4, slice b 8 (size - 8)⟩ :: ·)

/-- All boxes of some bytes. -/
def allBoxes (pos : Nat) (b : Bytes) : Option (List Box) := boxes b.length pos b

/-- The type of a box. -/
def kind (s : String) : Bytes := s.toList.map fun c => UInt8.ofNat c.toNat

/-- The first box of a type. -/
def the (s : String) (bs : List Box) : Option Box := bs.find? (·.kind = kind s)

/-- A sample: when it is decoded, when it is shown, for how long, whether it is a key frame, and its data. -/
structure Sample where
  dts : Int
  pts : Int
  dur : Nat
  sync : Bool
  data : Bytes
deriving Repr, DecidableEq

/-- A number of a sample that is there if a flag is set. -/
def opt (on : Bool) (b : Bytes) : Nat × Bytes := if on then (num (b.take 4), b.drop 4) else (0, b)

/-- An entry of a `trun`. -/
structure Entry where
  dur : Nat
  size : Nat
  flags : Nat
  cts : Nat
deriving Repr, DecidableEq

/-- Size of an entry. -/
def entrySize (flags : Nat) : Nat :=
  (if flags.testBit 8 then 4 else 0) + (if flags.testBit 9 then 4 else 0) + (if flags.testBit 10 then 4 else 0) +
    (if flags.testBit 11 then 4 else 0)

/-- An entry and the bytes after it. -/
def readEntry (flags : Nat) (b : Bytes) : Entry × Bytes :=
  let (dur, b) := opt (flags.testBit 8) b
  let (size, b) := opt (flags.testBit 9) b
  let (fl, b) := opt (flags.testBit 10) b
  let (cts, b) := opt (flags.testBit 11) b
  (⟨dur, size, fl, cts⟩, b)

/-- `n` entries, which must be all of the bytes. -/
def readEntries (flags : Nat) : Nat → Bytes → Option (List Entry)
  | 0, b => if b = [] then some [] else none
  | n + 1, b =>
    if b.length < entrySize flags then none
    else (readEntries flags n (readEntry flags b).2).map ((readEntry flags b).1 :: ·)

/-- A number of 32 bits with a sign. -/
def signed (n : Nat) : Int := if n < 2 ^ 31 then n else n - 2 ^ 32

/-- The samples of entries: `p` is the place of the data in the file, `t` the decoding time. The data must be within
the content of a box `mdat`. -/
def samples (file : Bytes) (mdats : List Box) (version : Nat) : Nat → Int → List Entry → Option (List Sample)
  | _, _, [] => some []
  | p, t, e :: es =>
    if mdats.any fun m => m.pos + 8 ≤ p ∧ p + e.size ≤ m.pos + 8 + m.body.length then
      (samples file mdats version (p + e.size) (t + e.dur) es).map
        (⟨t, t + (if version = 0 then (e.cts : Int) else signed e.cts), e.dur, !e.flags.testBit 16, slice file p e.size⟩ :: ·)
    else none

/-- A `trun`: places are relative to the start of the `moof`. It must have a data offset, durations and sizes, and no
flags for the first sample only. -/
def readTrun (file : Bytes) (mdats : List Box) (moof : Nat) (t : Int) (b : Bytes) : Option (List Sample) :=
  let version := num (b.take 1)
  let flags := num (slice b 1 3)
  if b.length < 12 ∨ !flags.testBit 0 ∨ flags.testBit 2 ∨ !flags.testBit 8 ∨ !flags.testBit 9 then none
  else do
    let es ← readEntries flags (num (slice b 4 4)) (b.drop 12)
    samples file mdats version (moof + signed (num (slice b 8 4))).toNat t es

/-- The sum of durations. -/
def total (ss : List Sample) : Int := (ss.map fun s => (s.dur : Int)).sum

/-- The samples of several `trun`, the first of which starts at `t`. -/
def readTruns (file : Bytes) (mdats : List Box) (moof : Nat) : Int → List Box → Option (List Sample)
  | _, [] => some []
  | t, b :: bs => do
    let ss ← readTrun file mdats moof t b.body
    let rest ← readTruns file mdats moof (t + total ss) bs
    some (ss ++ rest)

/-- A `tfdt`. -/
def readTfdt (b : Bytes) : Option Nat :=
  if num (b.take 1) = 1 ∧ b.length = 12 then some (num (b.drop 4))
  else if num (b.take 1) = 0 ∧ b.length = 8 then some (num (b.drop 4))
  else none

/-- A `traf`: the id of the track and its samples. The places of data must be relative to the `moof`. -/
def readTraf (file : Bytes) (mdats : List Box) (moof : Nat) (b : Bytes) : Option (Nat × List Sample) := do
  let bs ← allBoxes 0 b
  let h ← the "tfhd" bs
  let t ← (the "tfdt" bs).bind fun d => readTfdt d.body
  if h.body.length < 8 ∨ (num (slice h.body 1 3)).testBit 0 ∨ !(num (slice h.body 1 3)).testBit 17 then none
  else do
    let ss ← readTruns file mdats moof t (bs.filter (·.kind = kind "trun"))
    some (num (slice h.body 4 4), ss)

/-- A `moof`: the tracks with their samples. -/
def readMoof (file : Bytes) (mdats : List Box) (m : Box) : Option (List (Nat × List Sample)) := do
  let bs ← allBoxes 0 m.body
  (bs.filter (·.kind = kind "traf")).mapM fun b => readTraf file mdats m.pos b.body

/-- A segment: the tracks of its `moof`, with their samples. -/
def readSegment (file : Bytes) : Option (List (Nat × List Sample)) := do
  let bs ← allBoxes 0 file
  let m ← the "moof" bs
  readMoof file (bs.filter (·.kind = kind "mdat")) m

/-- A `sidx` with one reference: the timescale, the earliest presentation time, the distance from the end of the
box to what it refers to, the size of that, and its duration. -/
structure Index where
  timescale : Nat
  earliest : Nat
  offset : Nat
  size : Nat
  dur : Nat
deriving Repr, DecidableEq

/-- The `sidx` of a file. -/
def readSidx (b : Bytes) : Option Index :=
  if num (b.take 1) = 0 ∧ b.length = 36 ∧ num (slice b 22 2) = 1 then
    some ⟨num (slice b 8 4), num (slice b 12 4), num (slice b 16 4), num (slice b 24 4) % 2 ^ 31, num (slice b 28 4)⟩
  else if num (b.take 1) = 1 ∧ b.length = 44 ∧ num (slice b 30 2) = 1 then
    some ⟨num (slice b 8 4), num (slice b 12 8), num (slice b 20 8), num (slice b 32 4) % 2 ^ 31, num (slice b 36 4)⟩
  else none

/-- A string that ends with a null, and what is after it. -/
def cstr : Bytes → Option (Bytes × Bytes)
  | [] => none
  | c :: b => if c = 0 then some ([], b) else (cstr b).map fun x => (c :: x.1, x.2)

/-- An `emsg` of version 1. -/
structure Event where
  timescale : Nat
  time : Nat
  dur : Nat
  id : Nat
  scheme : Bytes
  value : Bytes
  message : Bytes
deriving Repr, DecidableEq

/-- The content of an `emsg`. -/
def readEmsg (b : Bytes) : Option Event :=
  if num (b.take 1) = 1 ∧ 24 ≤ b.length then do
    let (s, r) ← cstr (b.drop 24)
    let (v, r) ← cstr r
    some ⟨num (slice b 4 4), num (slice b 8 8), num (slice b 16 4), num (slice b 20 4), s, v, r⟩
  else none

/-! ## What is expected -/

/-- The data of frames of some sizes, one after the other in memory from `p` on. -/
def cut (mem : Nat → UInt8) : Nat → List Nat → List Bytes
  | _, [] => []
  | p, n :: l => (List.range n).map (fun i => mem (p + i)) :: cut mem (p + n) l

/-- When frames are shown: `t` is the decoding time of the first, each frame has a duration and a delay. -/
def shown : Int → List (Nat × Nat) → List Int
  | _, [] => []
  | t, (dur, delay) :: l => (t + delay) :: shown (t + dur) l

end Verif.Fmp4Spec
