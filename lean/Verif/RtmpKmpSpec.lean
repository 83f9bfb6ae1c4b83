import Verif.RtmpKmp

/-!
# RTMP to KMP: what should be sent

Tags after the FLV file format (Annex E.4) and the enhanced RTMP specification, read from the whole payload. Of the model only the types of inputs and
packets are used.
-/

namespace Verif.RtmpKmpSpec

open Verif.RtmpKmp (Bytes Info KFrame Out Codec)

/-- A number of 24 bits with a sign (SI24). -/
def rd24 (a b c : UInt8) : Int :=
  let n := a.toNat * 65536 + b.toNat * 256 + c.toNat
  if n < 2 ^ 23 then n else (n : Int) - 2 ^ 24

/-- What a message has: the configuration of a decoder, or a frame with its composition time. -/
inductive Tag where
  | config (data : Bytes)
  | frame (key : Bool) (delay : Int) (data : Bytes)
deriving DecidableEq, Repr

/-- A video tag: H.264, or one with an extended header. H.265 has composition times, other codecs with extended headers have none. -/
def readVideo : Bytes → Option Tag
  | k :: r =>
    if k.toNat < 128 then
      if k.toNat % 16 = 7 then
        match r with
        | p :: a :: b :: c :: d => some (if p = 0 then .config d else .frame (k.toNat / 16 == 1) (rd24 a b c) d)
        | _ => none
      else none
    else
      match r with
      | w :: x :: y :: z :: d =>
        if k.toNat % 16 = 0 then some (.config d)
        else if k.toNat % 16 = 1 ∧ ([w, x, y, z] = [104, 118, 99, 49] ∨ [w, x, y, z] = [104, 101, 118, 49]) then
          match d with
          | a :: b :: c :: d => some (.frame (k.toNat / 16 % 8 == 1) (rd24 a b c) d)
          | _ => none
        else some (.frame (k.toNat / 16 % 8 == 1) 0 d)
      | _ => none
  | [] => none

/-- An audio tag: AAC (10) has configurations. -/
def readAudio : Bytes → Option Tag
  | k :: r =>
    if k.toNat / 16 = 10 then
      match r with
      | p :: d => some (if p = 0 then .config d else .frame false 0 d)
      | [] => none
    else some (.frame false 0 r)
  | [] => none

def readTag (video : Bool) : Bytes → Option Tag := if video then readVideo else readAudio

/-- A message of a track: what it has, its time in milliseconds, what the codec module knows (`info`), the clock. -/
structure Item where
  tag : Tag
  time : Int
  info : Info
  created : Int
deriving DecidableEq, Repr

/-- A frame that has data. -/
def Item.full (x : Item) : Bool :=
  match x.tag with
  | .frame _ _ d => d != []
  | _ => false

/-- The state of a receiver of KMP: the last configuration, if it was sent, if the track was published. -/
structure Said where
  extra : Bytes := []
  told : Bool := false
  published : Bool := false
deriving DecidableEq, Repr

/-- The packets: each frame with data, behind the media info with the last configuration when that is new. `times` are the times of the frames. -/
def packets (scale : Nat) : Said → List Item → List Int → List Out
  | _, [], _ => []
  | s, x :: l, ts =>
    match x.tag with
    | .config d => packets scale { s with extra := d, told := false } l ts
    | .frame key delay d =>
      if d = [] then packets scale s l ts
      else
        (if s.told then [] else [.info x.info s.extra]) ++ (if s.published then [] else [.publish]) ++
          [.frame ⟨x.created, ts.headD 0, if key then 1 else 0, delay * scale, d.length, d⟩] ++
            packets scale { s with told := true, published := true } l ts.tail

/-- The times of the frames with data. -/
def times (l : List Item) : List Int := (l.filter Item.full).map (·.time)

/-- Each time is less than 2 ^ 31 ms from the one before, and there is no odd multiple of 2 ^ 31 ms between them. -/
def Near : Int → List Int → Prop
  | _, [] => True
  | t, u :: l => (-2 ^ 31 < u - t ∧ u - t < 2 ^ 31) ∧ (u + 2 ^ 31) / 2 ^ 32 = (t + 2 ^ 31) / 2 ^ 32 ∧ Near u l

/-- The first time is told in full. -/
def Steady : List Int → Prop
  | [] => True
  | t :: l => (0 ≤ t ∧ t < 2 ^ 32) ∧ Near t l

/-- The media info of KMP for what is known of the codecs. -/
def infoOf (video : Bool) (timescale : Nat) (k : Codec) : Info :=
  if video then
    .video (if k.videoCodec = 0x31637668 ∨ k.videoCodec = 0x31766568 then 8 else k.videoCodec) timescale (k.videoRate * 1000) k.width k.height k.frameRate.1 k.frameRate.2
      k.captions
  else .audio (1000 + k.audioCodec) timescale (k.audioRate * 1000) k.channels (k.sampleSize * 8) k.sampleRate (if k.channels = 1 then 4 else 3)

/-- It can be told in KMP. -/
def Fits (k : Codec) : Prop :=
  k.videoCodec < 2 ^ 32 ∧ k.videoRate * 1000 < 2 ^ 32 ∧ k.width < 2 ^ 16 ∧ k.height < 2 ^ 16 ∧ k.frameRate.1 < 2 ^ 32 ∧ k.frameRate.2 < 2 ^ 32 ∧ k.captions < 2 ^ 32 ∧
    1000 + k.audioCodec < 2 ^ 32 ∧ k.audioRate * 1000 < 2 ^ 32 ∧ k.channels < 2 ^ 16 ∧ k.sampleSize * 8 < 2 ^ 16 ∧ k.sampleRate < 2 ^ 32

/-- The message of an item: in any buffers, with its time modulo 2 ^ 32. -/
def Carries (video : Bool) (timescale : Nat) (x : RtmpKmp.Input) (y : Item) : Prop :=
  x.msg.type = (if video then 9 else 8) ∧ (x.msg.timestamp : Int) = y.time % 2 ^ 32 ∧ x.msg.mlen = x.msg.data.flatten.length ∧ x.msg.mlen < 2 ^ 32 ∧
    readTag video x.msg.data.flatten = some y.tag ∧ x.created = y.created ∧ ∃ k, x.codec = some k ∧ Fits k ∧ infoOf video timescale k = y.info

/-- Messages of items, in order. -/
def AllCarry (video : Bool) (timescale : Nat) : List RtmpKmp.Input → List Item → Prop
  | [], [] => True
  | x :: xs, y :: ys => Carries video timescale x y ∧ AllCarry video timescale xs ys
  | _, _ => False

/-- Times near others. -/
def AllNear (m : Int) : List Int → List Int → Prop
  | [], [] => True
  | x :: xs, y :: ys => (-m ≤ x - y ∧ x - y ≤ m) ∧ AllNear m xs ys
  | _, _ => False

/-- AAC of some sample rate. -/
def IsAac (rate : Nat) : Info → Prop
  | .audio codec _ _ _ _ r _ => codec = 1010 ∧ r = rate
  | _ => False

/-- The codec is another. -/
def NoAac : Info → Prop
  | .audio codec _ _ _ _ _ _ => codec ≠ 1010
  | _ => True

/-- Times of `n` frames of 1024 samples in whole milliseconds: frame `i` is played `(a + 1024000 * i) / rate` ms after the start. -/
def source (rate a n : Nat) : List Int := (List.range n).map fun i => (((a + 1024000 * i) / rate : Nat) : Int)

/-- Times of `n` frames of 1024 samples from `t` on, in whole ticks. -/
def exact (timescale rate n : Nat) (t : Int) : List Int := (List.range n).map fun i => t + ((1024 * i * timescale / rate : Nat) : Int)

end Verif.RtmpKmpSpec
