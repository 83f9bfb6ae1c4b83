import Verif.PckgName
import Verif.SegmentInfo

/-!
# Media playlists of the packager

Model of `ngx_http_pckg_m3u8_index_build` and of what it calls (ngx_http_pckg_m3u8.c:1510-2397), and of ngx_pckg_media_info.c. The playlist
is a list of lines, each of which is followed by a line feed in the response. Tracks are not encrypted, and no key format is configured.
Not modelled: allocation and logging; the choice of the container (ngx_http_pckg_m3u8.c:378-449). Values of configured variables, the
estimators of bitrates and `ngx_gmtime` are parameters. Indexes of segments do not wrap, since the reader of the response refuses that
(ngx_pckg_ksmp.c:341-347).
-/

namespace Verif.M3u8

open Verif.Sub (str padded)
open Verif.PName (Bytes Name dec write sepSelector sepSelectorSize)
open Verif.SegmentInfo (PIter pinit mget)

/-! ## What the playlist is made of -/

/-- `ngx_http_pckg_mpegts_container` (ngx_http_pckg_mpegts.c), `ngx_http_pckg_fmp4_container` (ngx_http_pckg_fmp4.c) and
`ngx_http_pckg_webvtt_container` (ngx_http_pckg_webvtt.c). -/
inductive Cont where
  | ts | fmp4 | vtt
deriving Repr, DecidableEq

/-- There is an `init_file_ext`. -/
def Cont.hasInit : Cont → Bool
  | .fmp4 => true
  | _ => false

/-- The `seg_file_ext`. -/
def Cont.ext : Cont → Bytes
  | .ts => str ".ts"
  | .fmp4 => str ".m4s"
  | .vtt => str ".vtt"

/-- `ngx_ksmp_segment_repeat_t` (ngx_ksmp.h). -/
structure Elt where
  count : Nat
  dur : Nat
deriving Repr, DecidableEq

/-- `ngx_pckg_period_t`; times below 0 are refused by the reader (ngx_pckg_ksmp.c:267-273). -/
structure Period where
  idx : Nat
  time : Nat
  elts : List Elt
deriving Repr, DecidableEq

/-- `ngx_pckg_segment_parts_t`; durations with flags. -/
structure Parts where
  idx : Nat
  durs : List Nat
deriving Repr, DecidableEq

/-- `ngx_ksmp_rendition_report_t`. -/
structure Rep where
  type : Nat
  seq : Nat
  part : Nat
deriving Repr, DecidableEq

/-- What `ngx_gmtime` of nginx gives. -/
structure Tm where
  year : Nat
  mon : Nat
  mday : Nat
  hour : Nat
  min : Nat
  sec : Nat
deriving Repr, DecidableEq

/-- The channel of a response, as far as it goes to the playlist: `ngx_ksmp_channel_header_t`, `ngx_ksmp_timeline_header_t`, the variant and
its media types, for each track the indexes of its media infos and its segment infos (none for subtitles, ngx_pckg_segment_info.c:13-16), the
parts of the first track. -/
structure Chan where
  timescale : Nat
  partDur : Nat
  target : Nat
  seq : Nat
  firstIdx : Nat
  initIdx : Nat
  skipPer : Nat
  skipSegs : Nat
  lastSkip : Nat
  endList : Bool
  periods : List Period
  id : Bytes
  types : Nat
  infos : List (List Nat)
  segInfos : List (List SegmentInfo.Elt)
  parts : List Parts
  reps : List (Bytes × List Rep)
  rrSeq : Nat
  rrPart : Nat

/-- Configuration and request: the container, `mlcf->program_date_time`, `mlcf->parts`, if the request has one media type, and the values of
`mlcf->ctl`. `est` is the estimators of the tracks, by the first segment of the period (`ngx_http_pckg_get_bitrate_estimator`). -/
structure Conf where
  cont : Cont
  date : Bool
  parts : Bool
  oneType : Bool
  block : Bool
  skipPct : Nat
  holdPct : Nat
  est : Nat → List (Nat → Nat → Nat)
  gm : Nat → Tm

/-! ## Media infos -/

/-- `NGX_KSMP_INVALID_SEGMENT_INDEX`, ngx_ksmp.h:69. -/
def invalid : Nat := 2 ^ 32 - 1

/-- `ngx_pckg_media_info_iter_get` (ngx_pckg_media_info.c:15-33) on the indexes from the current one; there is always one
(ngx_pckg_ksmp.c:427). -/
def iterGet (x : Nat) : List Nat → Nat × List Nat
  | [] => (invalid, [])
  | [a] => (a, [a])
  | a :: b :: l => if b ≤ x then iterGet x (b :: l) else (a, a :: b :: l)

/-- The update of `map_index` (ngx_pckg_media_info.c:100-109). -/
def mapStep (x map cur : Nat) : Nat :=
  if map > x then (if cur < map then cur else map)
  else if cur > map ∧ cur ≤ x then cur else map

/-- The loop of `ngx_pckg_media_info_get` (ngx_pckg_media_info.c:95-110). -/
def infoLoop (x : Nat) : Nat → List (List Nat) → Nat × List (List Nat)
  | map, [] => (map, [])
  | map, t :: ts =>
    let g := iterGet x t
    let r := infoLoop x (mapStep x map g.1) ts
    (r.1, g.2 :: r.2)

/-- `ngx_pckg_media_info_get` (ngx_pckg_media_info.c:86-111). -/
def infoGet (x : Nat) (ts : List (List Nat)) : Nat × List (List Nat) := infoLoop x invalid ts

/-! ## Parts -/

/-- The format `%uD.%03uD` of milliseconds. -/
def secs (v : Nat) : Bytes := dec (v / 1000) ++ (46 :: padded 3 (v % 1000))

/-- `NGX_KSMP_PART_PRELOAD_HINT`, ngx_ksmp.h. -/
def hint : Nat := 2 ^ 32 - 1

/-- The end of the line of a part (ngx_http_pckg_m3u8.c:1743-1748). -/
def partUri (c : Chan) (ext : Bytes) (idx p : Nat) : Bytes := str ",URI=\"" ++ (write c.id c.types (.part ext idx p) ++ [34])

/-- The flags of a part (ngx_http_pckg_m3u8.c:1735-1740). -/
def partFlags (d : Nat) : Bytes :=
  if d.testBit 31 then str ",INDEPENDENT=YES" else if d.testBit 30 then str ",GAP=YES" else []

/-- The loop of `ngx_http_pckg_m3u8_parts_write` (ngx_http_pckg_m3u8.c:1714-1749), from the part `p`. -/
def partsLoop (c : Chan) (ext : Bytes) (milli idx : Nat) : Nat → Nat → Nat → List Nat → List Bytes
  | _, _, _, [] => []
  | time, start, p, d :: ds =>
    if d = hint then
      (str "#EXT-X-PRELOAD-HINT:TYPE=PART" ++ partUri c ext idx p) :: partsLoop c ext milli idx time start (p + 1) ds
    else
      let stop := (time + d % 2 ^ 30) / milli
      (str "#EXT-X-PART:DURATION=" ++ (secs ((stop - start) % 2 ^ 32) ++ (partFlags d ++ partUri c ext idx p))) ::
        partsLoop c ext milli idx (time + d % 2 ^ 30) stop (p + 1) ds

/-- `ngx_http_pckg_m3u8_parts_write` (ngx_http_pckg_m3u8.c:1701-1752). -/
def partsWrite (c : Chan) (ext : Bytes) (milli time : Nat) (p : Parts) : List Bytes :=
  partsLoop c ext milli p.idx time (time / milli) 0 p.durs

/-! ## Segments -/

/-- The state of the loops of `ngx_http_pckg_m3u8_write_period_segments`: lines written, `segment_index`, `time`, `start`, `last_bitrate`,
the parts from `parts_cur`, and the iterators over bitrates. -/
structure S where
  out : List Bytes
  seg : Nat
  time : Nat
  start : Nat
  last : Nat
  parts : List Parts
  its : List PIter

/-- Bits per second to kilobits (ngx_http_pckg_m3u8.c:1874). -/
def kbps (b : Nat) : Nat := if b > 1000 then b / 1000 else 1

/-- The tag of a gap or a bitrate (ngx_http_pckg_m3u8.c:1870-1886), and the new `last_bitrate`. -/
def rateTag (last b : Nat) : List Bytes × Nat :=
  if b = 0 then ([str "#EXT-X-GAP"], last)
  else if kbps b ≠ 1 ∧ kbps b ≠ last then ([str "#EXT-X-BITRATE:" ++ dec (kbps b)], kbps b)
  else ([], last)

/-- The parts of a segment (ngx_http_pckg_m3u8.c:1848-1856 and 1900-1905). -/
def partsOf (c : Chan) (ext : Bytes) (milli : Nat) (s : S) : List Bytes × List Parts :=
  match s.parts with
  | [] => ([], [])
  | p :: ps => if s.seg = p.idx then (partsWrite c ext milli s.time p, ps) else ([], p :: ps)

/-- One segment (ngx_http_pckg_m3u8.c:1844-1894). -/
def segStep (c : Chan) (ext : Bytes) (milli : Nat) (ests : List (Nat → Nat → Nat)) (d : Nat) (s : S) : S :=
  let pl := partsOf c ext milli s
  let stop := (s.time + d) / milli
  let dur := (stop - s.start) % 2 ^ 32
  let g := mget s.seg s.its (ests.map fun f b => f b dur) 0
  let t := rateTag s.last g.1
  { out := s.out ++ pl.1 ++ [str "#EXTINF:" ++ (secs dur ++ [44])] ++ t.1 ++ [write c.id c.types (.seg ext s.seg)],
    seg := s.seg + 1, time := s.time + d, start := stop, last := t.2, parts := pl.2, its := g.2 }

/-- The segments of an element (ngx_http_pckg_m3u8.c:1842-1895). -/
def eltLoop (f : S → S) : Nat → S → S
  | 0, s => s
  | k + 1, s => eltLoop f k (f s)

/-- The elements (ngx_http_pckg_m3u8.c:1837-1896). -/
def eltsLoop (c : Chan) (ext : Bytes) (milli : Nat) (ests : List (Nat → Nat → Nat)) : List Elt → S → S
  | [], s => s
  | e :: es, s => eltsLoop c ext milli ests es (eltLoop (segStep c ext milli ests e.dur) e.count s)

/-- The last segment is pending (ngx_http_pckg_m3u8.c:1828-1835). -/
def pending (p : Period) : Bool :=
  match p.elts.getLast? with
  | some e => e.dur == 0
  | none => false

/-- The elements that are written (ngx_http_pckg_m3u8.c:1827-1835). -/
def written (p : Period) : List Elt := if pending p then p.elts.dropLast else p.elts

/-- `ngx_http_pckg_m3u8_write_period_segments` (ngx_http_pckg_m3u8.c:1778-1908). There are no parts to write when the channel has several
tracks (see `build`). -/
def writePeriod (c : Chan) (f : Conf) (milli : Nat) (p : Period) (parts : List Parts) (its : List PIter) :
    List Bytes × List Parts × List PIter :=
  let s := eltsLoop c f.cont.ext milli (f.est p.idx) (written p)
    { out := [], seg := p.idx, time := p.time, start := p.time / milli, last := 0, parts := parts.dropWhile (·.idx < p.idx), its }
  let pl := if pending p then partsOf c f.cont.ext milli s else ([], s.parts)
  (s.out ++ pl.1, pl.2, s.its)

/-! ## The playlist -/

/-- The format of a date (`M3U8_PROGRAM_DATE_TIME`, ngx_http_pckg_m3u8.c:79-80) and its values (ngx_http_pckg_m3u8.c:2366-2373). Years have
four digits. -/
def dateLine (f : Conf) (timescale milli time : Nat) : Bytes :=
  let t := f.gm (time / timescale)
  str "#EXT-X-PROGRAM-DATE-TIME:" ++ (dec t.year ++ (45 :: (padded 2 t.mon ++ (45 :: (padded 2 t.mday ++ (84 :: (padded 2 t.hour ++
    (58 :: (padded 2 t.min ++ (58 :: (padded 2 t.sec ++ (46 :: (padded 3 (time / milli % 1000) ++ str "+00:00")))))))))))))

/-- The state of the loop over periods: `i`, `last_map_index`, media infos, parts, bitrates. -/
structure P where
  i : Nat
  lastMap : Nat
  infos : List (List Nat)
  parts : List Parts
  its : List PIter

/-- The lines before the segments of a period (ngx_http_pckg_m3u8.c:2341-2374), and the next `last_map_index`. -/
def periodHead (c : Chan) (f : Conf) (milli : Nat) (p : Period) (i map lastMap : Nat) : List Bytes × Nat :=
  let at0 := decide (p.idx = c.initIdx)
  let disc := if i > 0 || (decide (c.skipSegs > 0) && at0) then [str "#EXT-X-DISCONTINUITY"] else []
  let mapLine := if f.cont.hasInit && map != lastMap && (decide (i > 0) || decide (c.skipSegs = 0) || at0) then
      [str "#EXT-X-MAP:URI=\"" ++ (write c.id c.types (.init map) ++ [34])] else []
  (disc ++ mapLine ++ (if f.date then [dateLine f c.timescale milli p.time] else []), if f.cont.hasInit then map else lastMap)

/-- The loop over periods (ngx_http_pckg_m3u8.c:2333-2377). -/
def periodsLoop (c : Chan) (f : Conf) (milli : Nat) : List Period → P → List Bytes
  | [], _ => []
  | p :: ps, s =>
    let g := infoGet p.idx s.infos
    let h := periodHead c f milli p s.i g.1 s.lastMap
    let w := writePeriod c f milli p s.parts s.its
    h.1 ++ w.1 ++ periodsLoop c f milli ps { i := s.i + 1, lastMap := h.2, infos := g.2, parts := w.2.1, its := w.2.2 }

/-- The target duration in seconds (ngx_http_pckg_m3u8.c:2279), in 32 bits. -/
def targetSecs (c : Chan) : Nat := (c.target + c.timescale / 2) % 2 ^ 32 / c.timescale

/-- The version (ngx_http_pckg_m3u8.c:2281-2299). -/
def version (c : Chan) (f : Conf) : Nat := if c.skipSegs > 0 then 9 else if f.cont.hasInit then 6 else 3

/-- `M3U8_INDEX_HEADER` (ngx_http_pckg_m3u8.c:70-73, 2301-2302). -/
def header (c : Chan) (f : Conf) : List Bytes :=
  [str "#EXTM3U", str "#EXT-X-TARGETDURATION:" ++ dec (targetSecs c), str "#EXT-X-VERSION:" ++ dec (version c f),
   str "#EXT-X-MEDIA-SEQUENCE:" ++ dec c.seq, str "#EXT-X-DISCONTINUITY-SEQUENCE:" ++ dec (c.firstIdx + 2 ^ 32 - c.skipPer),
   str "#EXT-X-INDEPENDENT-SEGMENTS", str "#EXT-X-ALLOW-CACHE:YES"]

/-- Items with commas between. -/
def commas : List Bytes → Bytes
  | [] => []
  | [a] => a
  | a :: l => a ++ (44 :: commas l)

/-- `ngx_http_pckg_m3u8_server_control_write` (ngx_http_pckg_m3u8.c:1949-2045). -/
def serverControl (c : Chan) (f : Conf) : List Bytes :=
  let block := f.oneType && !c.endList && f.block
  let hold := if f.oneType && f.parts && decide (c.partDur ≠ 0) then f.holdPct else 0
  if !block && decide (f.skipPct = 0) && decide (hold = 0) then []
  else [str "#EXT-X-SERVER-CONTROL:" ++ commas (
    (if block then [str "CAN-BLOCK-RELOAD=YES"] else []) ++
    (if f.skipPct ≠ 0 then [str "CAN-SKIP-UNTIL=" ++ secs (targetSecs c * f.skipPct * 10 % 2 ^ 64)] else []) ++
    (if hold ≠ 0 then [str "PART-HOLD-BACK=" ++ secs (c.partDur * hold * 10 % 2 ^ 64 / c.timescale)] else []))]

/-- The tag of the target duration of parts (ngx_http_pckg_m3u8.c:2307-2314). -/
def partInf (c : Chan) (f : Conf) : List Bytes :=
  if c.partDur > 0 && f.parts && f.oneType then
    [str "#EXT-X-PART-INF:PART-TARGET=" ++ secs ((c.partDur * 1000 + c.timescale / 2) / c.timescale % 2 ^ 32)]
  else []

/-- The tag of skipped segments (ngx_http_pckg_m3u8.c:2316-2317). -/
def skipTag (c : Chan) : List Bytes := if c.skipSegs > 0 then [str "#EXT-X-SKIP:SKIPPED-SEGMENTS=" ++ dec c.skipSegs] else []

/-- A rendition report (ngx_http_pckg_m3u8.c:2089-2110). -/
def reportLine (c : Chan) (id : Bytes) (r : Rep) : Bytes :=
  str "#EXT-X-RENDITION-REPORT:URI=\"" ++ (write id (2 ^ r.type) .index ++ (34 ::
    ((if r.seq ≠ c.rrSeq then str ",LAST-MSN=" ++ dec r.seq else []) ++ (if r.part ≠ c.rrPart then str ",LAST-PART=" ++ dec r.part else []))))

/-- `ngx_http_pckg_m3u8_redition_reports_write` (ngx_http_pckg_m3u8.c:2074-2115). -/
def reports (c : Chan) : List Bytes := c.reps.flatMap fun v => v.2.map (reportLine c v.1)

/-- The state of the loop over periods at its start (ngx_http_pckg_m3u8.c:2316-2325). -/
def startP (c : Chan) : P :=
  let g := if c.skipSegs > 0 then infoGet c.lastSkip c.infos else (invalid, c.infos)
  { i := 0, lastMap := g.1, infos := g.2, parts := if c.segInfos.length = 1 then c.parts else [], its := c.segInfos.map pinit }

/-- The lines of the playlist. -/
def lines (c : Chan) (f : Conf) : List Bytes :=
  header c f ++ serverControl c f ++ partInf c f ++ skipTag c ++ periodsLoop c f (c.timescale / 1000) c.periods (startP c) ++ reports c ++
    (if c.endList then [str "#EXT-X-ENDLIST"] else [])

/-- Lines with their ends. -/
def unlines (ls : List Bytes) : Bytes := ls.flatMap (· ++ [10])

/-- `ngx_http_pckg_m3u8_index_build` (ngx_http_pckg_m3u8.c:2118-2397), without the check of the size. A timescale below 1000 is a division
by zero. -/
def build (c : Chan) (f : Conf) : Res Bytes := if c.timescale < 1000 then .ub else .ok (unlines (lines c f))

end Verif.M3u8
