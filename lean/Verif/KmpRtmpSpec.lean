import Verif.RtmpSpec
import Verif.AmfSpec
import Verif.KmpRtmp

/-!
# KMP to RTMP: the messages that a server should get

Messages after sections 5.4, 7.1 and 7.2 of the RTMP specification, values after that of AMF0, tags after the FLV file format (Annex E.4) and the
enhanced RTMP specification. Of the model only the types are used of what happens on a connection (`Ev`), and the parameters.
-/

namespace Verif.KmpRtmpSpec

open Verif.RtmpSpec (Mess)
open Verif.AmfSpec (Value Fields enc)
open Verif.KmpRtmp (Bytes Env Connect Meta Ev Frame txt)

/-- Values, one after the other. -/
def amf (vs : List Value) : Bytes := (vs.map enc).flatten

def obj (fs : List (Bytes × Value)) : Value := .obj (Fields.ofList fs)

/-- An array with names says how many there are. -/
def arr (fs : List (Bytes × Value)) : Value := .ecma fs.length (Fields.ofList fs)

def num (e : Env) (n : Nat) : Value := .num (e.dbl n)

/-- The messages on chunk stream 3 about the connection have the message stream 0 and no time. -/
def command (vs : List Value) : Mess := ⟨3, 0, 20, 0, amf vs⟩

def connectMess (e : Env) (c : Connect) : Mess :=
  command [.str (txt "connect"), num e 1, obj [(txt "app", .str c.app), (txt "flashVer", .str c.flashVer), (txt "swfUrl", .str c.swfUrl),
    (txt "tcUrl", .str c.tcUrl), (txt "pageUrl", .str c.pageUrl)]]

/-- 5.4.1. -/
def sizeMess (size : Nat) : Mess := ⟨2, 0, 1, 0, RtmpSpec.be32 size⟩

/-- The chunk size that the messages set: what a server does with them. -/
def ctl (l : List Mess) : Option (List Nat) :=
  match l.getLast? with
  | some m => if m.type = 1 then some [m.payload.foldl (fun a b => a * 256 + b.toNat) 0] else some []
  | none => some []

/-! ## Tags -/

/-- A number of 24 bits with a sign (SI24): the bytes. -/
def si24 (x : Int) : Bytes := RtmpSpec.be24 ((x % 2 ^ 24).toNat)

/-- VIDEODATA for AVC: the kind of frame (key frame 1, other 2) and the codec 7, the kind of packet, the composition time. -/
def avcTag (packet : Nat) (key : Bool) (delay : Int) : Bytes := [if key then 0x17 else 0x27, UInt8.ofNat packet] ++ si24 delay

/-- The extended header: the kind of frame with the first bit, the kind of packet, the name of the codec, and the composition time for frames. -/
def hevcTag (packet : Nat) (key : Bool) (delay : Int) : Bytes :=
  [(if key then 0x90 else 0xa0) + UInt8.ofNat packet] ++ txt "hvc1" ++ (if packet = 1 then si24 delay else [])

/-- AUDIODATA: format, rate, size and kind. -/
def soundByte (format rate bits channels : Nat) : UInt8 :=
  UInt8.ofNat (format * 16 + (if rate ≤ 8000 then 0 else if rate ≤ 16000 then 1 else if rate ≤ 32000 then 2 else 3) * 4 + (if bits = 8 then 0 else 1) * 2 +
    (if channels = 1 then 0 else 1))

/-- The message of a frame: its type, and what is in front of the data. `sound` is what was said about the audio last. -/
def frameTag (sound : UInt8) (codec : Nat) (f : Frame) : Option (Nat × Bytes) :=
  if codec = 7 then some (9, avcTag 1 (f.flags % 2 == 1) f.pts)
  else if codec = 8 then some (9, hevcTag 1 (f.flags % 2 == 1) f.pts)
  else if codec = 1002 then some (8, [sound])
  else if codec = 1010 then some (8, [sound, 1])
  else none

/-! ## Reading tags -/

/-- A number of 24 bits with a sign. -/
def rd24 (a b c : UInt8) : Int :=
  let n := a.toNat * 65536 + b.toNat * 256 + c.toNat
  if n < 2 ^ 23 then n else (n : Int) - 2 ^ 24

/-- A video tag of H.264 (7) or H.265 (8): key frame or not, codec, kind of packet, composition time, data. -/
def readVideo : Bytes → Option (Bool × Nat × Nat × Int × Bytes)
  | k :: x :: a :: b :: c :: r =>
    if k.toNat < 128 then
      if k.toNat % 16 = 7 then some (k.toNat / 16 == 1, 7, x.toNat, rd24 a b c, r) else none
    else if [x, a, b, c] = [0x68, 0x76, 0x63, 0x31] then
      if k.toNat % 16 = 1 then
        match r with
        | a :: b :: c :: r => some (k.toNat / 16 % 8 == 1, 8, 1, rd24 a b c, r)
        | _ => none
      else some (k.toNat / 16 % 8 == 1, 8, k.toNat % 16, 0, r)
    else none
  | _ => none

structure AudioTag where
  format : Nat
  rate : Nat
  wide : Bool
  stereo : Bool
  packet : Nat
  data : Bytes

/-- An audio tag; those of AAC (10) say the kind of packet. -/
def readAudio : Bytes → Option AudioTag
  | b :: r =>
    if b.toNat / 16 = 10 then
      match r with
      | p :: r => some ⟨b.toNat / 16, b.toNat / 4 % 4, b.toNat / 2 % 2 == 1, b.toNat % 2 == 1, p.toNat, r⟩
      | [] => none
    else some ⟨b.toNat / 16, b.toNat / 4 % 4, b.toNat / 2 % 2 == 1, b.toNat % 2 == 1, 0, r⟩
  | [] => none

/-! ## A connection -/

structure St where
  id : Nat
  name : Bytes
  sound : UInt8 := 0
  started : Bool := false
  /-- The time of the last frame. -/
  time : Option Nat := none
  /-- The time that was told last. -/
  told : Int := 0

structure Sp where
  period : Nat
  tx : Nat := 1
  count : Nat := 0
  sts : List St := []

/-- The chunk stream of a stream. -/
def St.csid (s : St) : Nat := s.id + 3

/-- The time field of the next frame: the first has its time, the others the difference. -/
def St.field (s : St) (dts : Int) : Nat :=
  match s.time with
  | none => (dts % 2 ^ 32).toNat
  | some t => ((dts - t) % 2 ^ 32).toNat

def Sp.find (p : Sp) (id : Nat) : Option St := p.sts.find? fun s => s.id == id

def Sp.set (p : Sp) (s : St) : Sp := { p with sts := p.sts.map fun t => if t.id = s.id then s else t }

def videoFields (e : Env) (m : Meta) : List (Bytes × Value) :=
  match m.video with
  | none => []
  | some v => [(txt "width", num e v.width), (txt "height", num e v.height), (txt "videodatarate", .num v.rates.bitrate), (txt "framerate", .num v.rates.frames),
      (txt "videocodecid", num e v.codec)]

def audioFields (e : Env) (m : Meta) : List (Bytes × Value) :=
  match m.audio with
  | none => []
  | some a => [(txt "audiodatarate", .num a.rates.bitrate), (txt "audiosamplerate", num e a.sampleRate), (txt "audiosamplesize", num e a.bits),
      (txt "stereo", .bool (if 2 ≤ a.channels then 1 else 0)), (txt "audiocodecid", num e (a.codec - 1000))]

/-- The decoder configurations: for H.264, H.265 and AAC. -/
def configs (s : St) (m : Meta) : List Mess :=
  (match m.video with
    | some v => if v.codec = 7 then [⟨s.csid, 0, 9, s.id, avcTag 0 true 0 ++ v.extra⟩]
      else if v.codec = 8 then [⟨s.csid, 0, 9, s.id, hevcTag 0 true 0 ++ v.extra⟩] else []
    | none => []) ++
  (match m.audio with
    | some a => if a.codec = 1010 then [⟨s.csid, 0, 8, s.id, [s.sound, 0] ++ a.extra⟩] else []
    | none => [])

/-- The messages that something that happens makes, with the time of a message relative to the one before it on the stream, if that is told.
`none`: it cannot happen, or the codec is not known. -/
def act (e : Env) (p : Sp) : Ev → Option (Sp × List (Mess × Nat))
  | .publish name =>
    some ({ p with tx := (p.tx + 4) % 2 ^ 32, count := p.count + 1, sts := p.sts ++ [{ id := p.count + 1, name }] },
      [(command [.str (txt "releaseStream"), num e ((p.tx + 1) % 2 ^ 32), .null, .str name], 0),
        (command [.str (txt "FCPublish"), num e ((p.tx + 2) % 2 ^ 32), .null, .str name], 0),
        (command [.str (txt "createStream"), num e ((p.tx + 3) % 2 ^ 32), .null], 0),
        (⟨p.count + 4, 0, 20, p.count + 1, amf [.str (txt "publish"), num e ((p.tx + 4) % 2 ^ 32), .null, .str name, .str (txt "live")]⟩, 0)])
  | .sound id codec rate bits channels =>
    match p.find id with
    | none => none
    | some s => some (p.set { s with sound := soundByte (codec - 1000) rate bits channels }, [])
  | .start id m =>
    match p.find id with
    | none => none
    | some s =>
      if s.started then none
      else some (p.set { s with started := true },
        (⟨s.csid, 0, 18, s.id, amf [.str (txt "@setDataFrame"), .str (txt "@onMetaData"), arr (videoFields e m ++ audioFields e m)]⟩, 0) ::
          (configs s m).map (·, 0))
  | .frame id codec f =>
    match p.find id with
    | none => none
    | some s =>
      match frameTag s.sound codec f with
      | none => none
      | some (type, tag) =>
        if s.started then
          let now := (f.dts % 2 ^ 32).toNat
          let told := p.period ≠ 0 ∧ (f.created < s.told ∨ s.told + p.period ≤ f.created)
          some (p.set { s with time := some now, told := if told then f.created else s.told },
            (⟨s.csid, now, type, s.id, tag ++ f.data.flatten⟩, s.field f.dts) ::
              if told then [(⟨s.csid, now, 18, s.id, amf [.str (txt "onFI"),
                arr [(txt "sd", .str (e.clock f.created).1), (txt "st", .str (e.clock f.created).2)]]⟩, 0)] else [])
        else none
  | .unpublish id =>
    match p.find id with
    | none => none
    | some s => some ({ p with tx := (p.tx + 2) % 2 ^ 32, sts := p.sts.filter fun t => t.id != id },
        [(command [.str (txt "FCUnpublish"), num e ((p.tx + 1) % 2 ^ 32), .null, .str s.name], 0),
          (command [.str (txt "deleteStream"), num e ((p.tx + 2) % 2 ^ 32), .null, num e s.id], 0)])

def acts (e : Env) (p : Sp) : List Ev → Option (List (Mess × Nat))
  | [] => some []
  | v :: vs =>
    match act e p v with
    | none => none
    | some (p', ms) =>
      match acts e p' vs with
      | none => none
      | some ms' => some (ms ++ ms')

/-- All the messages of a connection. -/
def messages (e : Env) (c : Connect) (size period : Nat) (vs : List Ev) : Option (List (Mess × Nat)) :=
  (acts e { period } vs).map fun ms => (connectMess e c, 0) :: (sizeMess size, 0) :: ms

end Verif.KmpRtmpSpec
