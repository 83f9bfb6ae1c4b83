import Verif.M3u8
import Verif.SegmentInfoPckg
import Verif.SubSpec

/-!
# A client of media playlists

A reader after RFC 8216 and its second edition: lines, tags with attribute lists, and what a tag is about (the next segment, all segments
that follow, the playlist). And what the client has to find for a channel. Of the model only the types of its input and the names of files
are used.
-/

namespace Verif.M3u8Spec

open Verif.Sub (str)
open Verif.SubSpec (isDigit value)
open Verif.PName (Bytes Name write)

/-! ## The reader -/

/-- The lines of a file. -/
def splitLines : Bytes → List Bytes
  | [] => []
  | c :: b =>
    if c = 10 then [] :: splitLines b
    else match splitLines b with
      | [] => [[c]]
      | l :: ls => (c :: l) :: ls

/-- What is before the first `x`, and what is after it. -/
def cut (x : UInt8) : Bytes → Bytes × Option Bytes
  | [] => ([], none)
  | c :: b => if c = x then ([], some b) else ((c :: (cut x b).1), (cut x b).2)

/-- A value in an attribute list: a quoted string or another one. -/
inductive Val where
  | quoted (b : Bytes)
  | plain (b : Bytes)
deriving Repr, DecidableEq

/-- An attribute list (RFC 8216, 4.2). The first argument bounds the number of attributes. -/
def attrs : Nat → Bytes → Option (List (Bytes × Val))
  | 0, _ => none
  | k + 1, b =>
    match cut 61 b with
    | (_, none) => none
    | (n, some v) =>
      if v.head? = some 34 then
        match cut 34 v.tail with
        | (_, none) => none
        | (s, some r) =>
          if r = [] then some [(n, .quoted s)]
          else if r.head? = some 44 then (attrs k r.tail).map ((n, .quoted s) :: ·)
          else none
      else
        match cut 44 v with
        | (s, none) => some [(n, .plain s)]
        | (s, some r) => (attrs k r).map ((n, .plain s) :: ·)

/-- A decimal integer. -/
def num (b : Bytes) : Option Nat := if b ≠ [] ∧ b.all isDigit then some (value b) else none

/-- A decimal number of seconds with three digits after the point, in milliseconds. -/
def millis (b : Bytes) : Option Nat :=
  match cut 46 b with
  | (a, some f) => if f.length = 3 then (num a).bind fun a => (num f).map (a * 1000 + ·) else none
  | _ => none

/-- The attribute with a name. -/
def find (n : Bytes) (l : List (Bytes × Val)) : Option Val := (l.find? fun a => a.1 = n).map (·.2)

/-- Attributes that are strings, numbers, numbers of seconds; the last two are optional. -/
def strOf (n : Bytes) (l : List (Bytes × Val)) : Option Bytes :=
  match find n l with
  | some (.quoted s) => some s
  | _ => none

def numOf (n : Bytes) (l : List (Bytes × Val)) : Option (Option Nat) :=
  match find n l with
  | none => some none
  | some (.plain s) => (num s).map some
  | _ => none

def msOf (n : Bytes) (l : List (Bytes × Val)) : Option (Option Nat) :=
  match find n l with
  | none => some none
  | some (.plain s) => (millis s).map some
  | _ => none

/-- A date. -/
structure Date where
  tm : M3u8.Tm
  ms : Nat
deriving Repr, DecidableEq

/-- A number of `k` digits, and what follows. -/
def field (k : Nat) (b : Bytes) : Option (Nat × Bytes) := if (b.take k).length = k then (num (b.take k)).map (·, b.drop k) else none

/-- A character that has to be there. -/
def lit (x : UInt8) : Bytes → Option Bytes
  | c :: b => if c = x then some b else none
  | [] => none

/-- A date in UTC with milliseconds (ISO 8601). -/
def dateOf (b : Bytes) : Option Date := do
  let (y, b) ← field 4 b
  let b ← lit 45 b
  let (mo, b) ← field 2 b
  let b ← lit 45 b
  let (d, b) ← field 2 b
  let b ← lit 84 b
  let (h, b) ← field 2 b
  let b ← lit 58 b
  let (mi, b) ← field 2 b
  let b ← lit 58 b
  let (s, b) ← field 2 b
  let b ← lit 46 b
  let (ms, b) ← field 3 b
  if b = str "+00:00" then some ⟨⟨y, mo, d, h, mi, s⟩, ms⟩ else none

/-- A part of a segment. -/
structure Part where
  uri : Bytes
  ms : Nat
  independent : Bool
  gap : Bool
deriving Repr, DecidableEq

/-- A segment: where it is, how long it lasts, its media sequence number and discontinuity sequence number, its initialization segment, the
date of its start if there is one, if it is a gap, the bitrate in kbps if there is one, and its parts. -/
structure Seg where
  uri : Bytes
  ms : Nat
  msn : Nat
  disc : Nat
  map : Option Bytes
  date : Option Date
  gap : Bool
  rate : Option Nat
  parts : List Part
deriving Repr, DecidableEq

/-- A rendition report. -/
structure Report where
  uri : Bytes
  msn : Option Nat
  part : Option Nat
deriving Repr, DecidableEq

/-- The tags for the whole playlist. -/
structure Head where
  target : Option Nat := none
  version : Option Nat := none
  seq : Nat := 0
  skip : Nat := 0
  independent : Bool := false
  partTarget : Option Nat := none
  block : Bool := false
  skipUntil : Option Nat := none
  holdBack : Option Nat := none
deriving Repr, DecidableEq

/-- The state of the reader: first what it has found, then what is known for the next segment. -/
structure St where
  head : Head := {}
  segs : List Seg := []
  hint : Option Bytes := none
  reports : List Report := []
  ended : Bool := false
  disc : Nat := 0
  map : Option Bytes := none
  rate : Option Nat := none
  date : Option Date := none
  dur : Option Nat := none
  gap : Bool := false
  parts : List Part := []
deriving Repr, DecidableEq

/-- What the client knows of the last segment that is skipped, from an earlier playlist. -/
structure Before where
  disc : Nat
  map : Option Bytes

inductive Tag where
  | m3u | target | version | seq | discSeq | independent | control | partInf | skip | disc | map | date | part | hint | inf | gap | rate
  | report | ended
deriving DecidableEq

def tagOf (n : Bytes) : Option Tag :=
  if n = str "#EXTM3U" then some .m3u
  else if n = str "#EXT-X-TARGETDURATION" then some .target
  else if n = str "#EXT-X-VERSION" then some .version
  else if n = str "#EXT-X-MEDIA-SEQUENCE" then some .seq
  else if n = str "#EXT-X-DISCONTINUITY-SEQUENCE" then some .discSeq
  else if n = str "#EXT-X-INDEPENDENT-SEGMENTS" then some .independent
  else if n = str "#EXT-X-SERVER-CONTROL" then some .control
  else if n = str "#EXT-X-PART-INF" then some .partInf
  else if n = str "#EXT-X-SKIP" then some .skip
  else if n = str "#EXT-X-DISCONTINUITY" then some .disc
  else if n = str "#EXT-X-MAP" then some .map
  else if n = str "#EXT-X-PROGRAM-DATE-TIME" then some .date
  else if n = str "#EXT-X-PART" then some .part
  else if n = str "#EXT-X-PRELOAD-HINT" then some .hint
  else if n = str "#EXTINF" then some .inf
  else if n = str "#EXT-X-GAP" then some .gap
  else if n = str "#EXT-X-BITRATE" then some .rate
  else if n = str "#EXT-X-RENDITION-REPORT" then some .report
  else if n = str "#EXT-X-ENDLIST" then some .ended
  else none

/-- A tag without a value. -/
def bare (s : St) : Tag → Option St
  | .m3u => some s
  | .independent => some { s with head := { s.head with independent := true } }
  | .disc => some { s with disc := s.disc + 1 }
  | .gap => some { s with gap := true }
  | .ended => some { s with ended := true }
  | _ => none

/-- A tag with a value. -/
def valued (before : Before) (s : St) (v : Bytes) : Tag → Option St
  | .target => (num v).map fun n => { s with head := { s.head with target := some n } }
  | .version => (num v).map fun n => { s with head := { s.head with version := some n } }
  | .seq => (num v).map fun n => { s with head := { s.head with seq := n } }
  | .discSeq => (num v).map fun n => { s with disc := n }
  | .inf => match cut 44 v with
    | (a, some _) => (millis a).map fun n => { s with dur := some n }
    | _ => none
  | .rate => (num v).map fun n => { s with rate := some n }
  | .date => (dateOf v).map fun d => { s with date := some d }
  | t => (attrs (v.length + 1) v).bind fun l => match t with
    | .control => (msOf (str "CAN-SKIP-UNTIL") l).bind fun u => (msOf (str "PART-HOLD-BACK") l).map fun h =>
        { s with head := { s.head with block := find (str "CAN-BLOCK-RELOAD") l = some (.plain (str "YES")), skipUntil := u, holdBack := h } }
    | .partInf => (msOf (str "PART-TARGET") l).map fun n => { s with head := { s.head with partTarget := n } }
    | .skip => (numOf (str "SKIPPED-SEGMENTS") l).bind fun n => n.map fun n =>
        { s with head := { s.head with skip := n }, disc := before.disc, map := before.map }
    | .map => (strOf (str "URI") l).map fun u => { s with map := some u }
    | .part => (strOf (str "URI") l).bind fun u => (msOf (str "DURATION") l).bind fun d => d.map fun d =>
        { s with parts := s.parts ++ [{ uri := u, ms := d, independent := find (str "INDEPENDENT") l = some (.plain (str "YES")),
                                        gap := find (str "GAP") l = some (.plain (str "YES")) }] }
    | .hint => if find (str "TYPE") l = some (.plain (str "PART")) then (strOf (str "URI") l).map fun u => { s with hint := some u } else some s
    | .report => (strOf (str "URI") l).bind fun u => (numOf (str "LAST-MSN") l).bind fun n => (numOf (str "LAST-PART") l).map fun p =>
        { s with reports := s.reports ++ [⟨u, n, p⟩] }
    | _ => none

/-- A line that is no tag is the URI of a segment. -/
def segment (s : St) (uri : Bytes) : Option St :=
  s.dur.map fun d => { s with
    segs := s.segs ++ [{ uri, ms := d, msn := s.head.seq + s.head.skip + s.segs.length, disc := s.disc, map := s.map, date := s.date,
                         gap := s.gap, rate := s.rate, parts := s.parts }],
    date := none, dur := none, gap := false, parts := [] }

/-- A line. Unknown tags are ignored, empty lines too. -/
def line (before : Before) (s : St) (l : Bytes) : Option St :=
  match l with
  | [] => some s
  | 35 :: _ =>
    match tagOf (cut 58 l).1 with
    | none => some s
    | some t => match (cut 58 l).2 with
      | none => bare s t
      | some v => valued before s v t
  | _ => segment s l

/-- Lines one after the other. -/
def run (before : Before) : St → List Bytes → Option St
  | s, [] => some s
  | s, l :: ls => (line before s l).bind fun s => run before s ls

/-- What a client finds. -/
structure Playlist where
  head : Head
  segs : List Seg
  next : List Part
  hint : Option Bytes
  reports : List Report
  ended : Bool
deriving Repr, DecidableEq

def read (before : Before) (b : Bytes) : Option Playlist :=
  match splitLines b with
  | [] => none
  | l :: ls =>
    if l = str "#EXTM3U" then
      (run before {} (l :: ls)).map fun s => { head := s.head, segs := s.segs, next := s.parts, hint := s.hint, reports := s.reports, ended := s.ended }
    else none

/-! ## What there is to find -/

open M3u8 (Chan Conf Period Parts Rep)

/-- A time in whole milliseconds. -/
def ms (c : Chan) (t : Nat) : Nat := t * 1000 / c.timescale

/-- The durations of the segments of a period that are complete; a pending one has duration 0. -/
def durs (p : Period) : List Nat := (p.elts.flatMap fun e => List.replicate e.count e.dur).filter (· ≠ 0)

/-- The initialization segment of a segment is that with the latest media info not after it, over all tracks; when there is none, the first
one after it. -/
def mapOf (c : Chan) (x : Nat) : Nat :=
  match (c.infos.flatten.filter (· ≤ x)).max? with
  | some m => m
  | none => (c.infos.flatten.min?).getD (2 ^ 32 - 1)

/-- The parts of a segment that starts at `t`, from the part with the number `p`. A hint has no duration and is no part. -/
def partList (c : Chan) (f : Conf) (idx : Nat) : Nat → Nat → List Nat → List Part
  | _, _, [] => []
  | t, p, d :: ds =>
    if d = 2 ^ 32 - 1 then partList c f idx t (p + 1) ds
    else
      { uri := write c.id c.types (.part f.cont.ext idx p), ms := ms c (t + d % 2 ^ 30) - ms c t, independent := d.testBit 31, gap := d.testBit 30 } ::
        partList c f idx (t + d % 2 ^ 30) (p + 1) ds

/-- The parts of a segment; only a request for one track has them. -/
def partsAt (c : Chan) (idx : Nat) : List Nat :=
  if c.segInfos.length = 1 then ((c.parts.find? fun p => p.idx = idx).map (·.durs)).getD [] else []

/-- The bitrate of a segment, over all tracks: 0 is a gap. -/
def rateOf (c : Chan) (f : Conf) (per idx dur : Nat) : Nat :=
  SegmentInfo.total (c.segInfos.map (SegmentInfo.valAt 1 · idx)) ((f.est per).map fun e b => e b dur)

/-- The bitrate that holds for a segment: its own in kbps, where it has one of at least 2 kbps, or the one before. -/
def rateNext (b : Nat) (r : Option Nat) : Option Nat := if b < 2000 then r else some (b / 1000)

/-- The segments of a period: `r` is the bitrate before, `d` the date of the first segment, then the media sequence number, the index and the
start of the next segment. -/
def perSegs (c : Chan) (f : Conf) (per disc : Nat) (map : Option Bytes) : Option Nat → Option Date → Nat → Nat → Nat → List Nat → List Seg
  | _, _, _, _, _, [] => []
  | r, d, n, i, t, x :: xs =>
    let dur := ms c (t + x) - ms c t
    let b := rateOf c f per i dur
    let r := rateNext b r
    { uri := write c.id c.types (.seg f.cont.ext i), ms := dur, msn := n, disc, map, date := d, gap := decide (b = 0), rate := r,
      parts := partList c f i t 0 (partsAt c i) } :: perSegs c f per disc map r none (n + 1) (i + 1) (t + x) xs

/-- The date of a time. -/
def dateAt (c : Chan) (f : Conf) (t : Nat) : Option Date := if f.date then some ⟨f.gm (t / c.timescale), ms c t % 1000⟩ else none

/-- The initialization segment of a period. -/
def mapAt (c : Chan) (f : Conf) (x : Nat) : Option Bytes := if f.cont.hasInit then some (write c.id c.types (.init (mapOf c x))) else none

/-- The bitrate after segments. -/
def rateAfter (r : Option Nat) (l : List Seg) : Option Nat :=
  match l.getLast? with
  | some s => s.rate
  | none => r

/-- The segments of periods. -/
def allSegs (c : Chan) (f : Conf) : Option Nat → Nat → Nat → List Period → List Seg
  | _, _, _, [] => []
  | r, disc, n, p :: ps =>
    let l := perSegs c f p.idx disc (mapAt c f p.idx) r (dateAt c f p.time) n p.idx p.time (durs p)
    l ++ allSegs c f (rateAfter r l) (disc + 1) (n + l.length) ps

/-- The pending segment: its index and start. -/
def pendingAt (c : Chan) : Option (Nat × Nat) :=
  match c.periods.getLast? with
  | none => none
  | some p => match p.elts.getLast? with
    | some e => if e.dur = 0 then some (p.idx + (durs p).length, p.time + (durs p).sum) else none
    | none => none

/-- The parts that follow the last segment. -/
def nextParts (c : Chan) (f : Conf) : List Part :=
  match pendingAt c with
  | some (i, t) => partList c f i t 0 (partsAt c i)
  | none => []

/-- The indexes of the segments with parts that are listed, complete or pending. -/
def shownIdx (c : Chan) : List Nat := c.periods.flatMap fun p => List.range' p.idx ((p.elts.map (·.count)).sum)

/-- The part that is not there yet: the last one of a segment, when it is marked so. -/
def hintOf (c : Chan) (f : Conf) (idx : Nat) : Option Bytes :=
  if (partsAt c idx).getLast? = some (2 ^ 32 - 1) then some (write c.id c.types (.part f.cont.ext idx ((partsAt c idx).length - 1))) else none

/-- The hint of a playlist is the last one. -/
def hintAll (c : Chan) (f : Conf) : Option Bytes := (shownIdx c).reverse.findSome? (hintOf c f)

def reportOf (c : Chan) (id : Bytes) (r : Rep) : Report :=
  ⟨write id (2 ^ r.type) .index, if r.seq = c.rrSeq then none else some r.seq, if r.part = c.rrPart then none else some r.part⟩

/-- Seconds to the nearest one, in milliseconds to the nearest one. -/
def nearest (x unit : Nat) : Nat := (x + unit / 2) / unit

/-- The tags of the whole playlist. -/
def headOf (c : Chan) (f : Conf) : Head :=
  let low := f.parts && f.oneType && decide (c.partDur ≠ 0)
  { target := some (nearest c.target c.timescale),
    version := some (if c.skipSegs > 0 then 9 else if f.cont.hasInit then 6 else 3),
    seq := c.seq, skip := c.skipSegs, independent := true,
    partTarget := if low then some (nearest (c.partDur * 1000) c.timescale) else none,
    block := f.oneType && !c.endList && f.block,
    skipUntil := if f.skipPct = 0 then none else some (nearest c.target c.timescale * 1000 * f.skipPct / 100),
    holdBack := if low && decide (f.holdPct ≠ 0) then some (c.partDur * 1000 * f.holdPct / 100 / c.timescale) else none }

/-- The playlist of a channel. -/
def expected (c : Chan) (f : Conf) : Playlist :=
  { head := headOf c f, segs := allSegs c f none c.firstIdx (c.seq + c.skipSegs) c.periods, next := nextParts c f, hint := hintAll c f,
    reports := c.reps.flatMap fun v => v.2.map (reportOf c v.1), ended := c.endList }

end Verif.M3u8Spec
