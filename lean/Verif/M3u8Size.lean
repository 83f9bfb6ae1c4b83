import Verif.M3u8

/-!
# Size of a media playlist

Model of the room that `ngx_http_pckg_m3u8_index_build` makes for the playlist before it is written.
-/

namespace Verif.M3u8

open Verif.Sub (str padded)
open Verif.PName (Bytes Name dec write sepSelector sepSelectorSize)
open Verif.SegmentInfo (PIter pinit mget mhas gapRoom)

/-- `vod_get_int_print_len` (media/common.c:3-13). -/
def printLen (n : Nat) : Nat := if n < 10 then 1 else printLen (n / 10) + 1
termination_by n
decreasing_by omega

/-- `NGX_INT32_LEN` of nginx. -/
def int32 : Nat := 11

/-- `seg_suffix.len` (ngx_http_pckg_m3u8.c:2167-2181). -/
def suffixLen (c : Chan) (f : Conf) : Nat := (sepSelector c.id c.types).length + f.cont.ext.length + 1

/-- The number of segments of a period, `segment_count` (ngx_pckg_ksmp.c:355). -/
def segCount (p : Period) : Nat := (p.elts.map (·.count)).sum

/-- `segment_index_size` (ngx_http_pckg_m3u8.c:2207-2210), of the last period. -/
def indexSize (p : Period) : Nat := printLen ((p.idx + segCount p) % 2 ^ 32)

/-- `segment_size` (ngx_http_pckg_m3u8.c:2212-2215). -/
def segSize (c : Chan) (f : Conf) (n : Nat) : Nat :=
  (str "#EXTINF:").length + int32 + (str ".000,\n").length + (str "seg").length + (str "-").length + n + suffixLen c f

/-- `period_size` (ngx_http_pckg_m3u8.c:2217-2231). -/
def periodSize (c : Chan) (f : Conf) (n : Nat) : Nat :=
  (str "#EXT-X-DISCONTINUITY\n").length +
  (if f.date then (str "#EXT-X-PROGRAM-DATE-TIME:2000-01-01T00:00:00.000+00:00\n").length else 0) +
  (if f.cont.hasInit then (str "#EXT-X-MAP:URI=\"").length + (str "-\"\n").length + (str "init").length + n + (sepSelector c.id c.types).length +
    (str ".mp4").length else 0)

/-- `ngx_http_pckg_m3u8_server_control_get_size` (ngx_http_pckg_m3u8.c:1936-1945). -/
def controlSize : Nat :=
  (str "#EXT-X-SERVER-CONTROL:").length + (str "CAN-BLOCK-RELOAD=YES").length + (str "CAN-SKIP-UNTIL=%uD.%03uD").length + 2 * int32 +
  (str "PART-HOLD-BACK=%uD.%03uD").length + 2 * int32 + (str ",,\n").length

/-- The room for the flags of a part (ngx_http_pckg_m3u8.c:1686-1695). -/
def flagSize (d : Nat) : Nat := if d.testBit 31 then (str ",INDEPENDENT=YES").length else if d.testBit 30 then (str ",GAP=YES").length else 0

/-- `ngx_http_pckg_m3u8_parts_get_size` (ngx_http_pckg_m3u8.c:1669-1698). -/
def partsSize (c : Chan) (f : Conf) (p : Parts) : Nat :=
  ((str "#EXT-X-PART:DURATION=%uD.%03uD").length + int32 + (str ".000").length + (str ",URI=\"%V-%uD-%uD").length + (str "part").length + 2 * int32 +
    (suffixLen c f - 1) + (str "\"\n").length) * p.durs.length + (p.durs.map flagSize).sum

/-- `ngx_http_pckg_m3u8_track_parts_get_size` (ngx_http_pckg_m3u8.c:1755-1775). -/
def trackPartsSize (c : Chan) (f : Conf) : Nat := if c.segInfos.length ≠ 1 then 0 else (c.parts.map (partsSize c f)).sum

/-- `ngx_http_pckg_m3u8_redition_reports_get_size` (ngx_http_pckg_m3u8.c:2047-2071). -/
def reportsSize (c : Chan) : Nat :=
  (c.reps.map fun v => ((str "#EXT-X-RENDITION-REPORT:URI=\"").length + (str "index").length + sepSelectorSize v.1 + (str ".m3u8").length +
    (str ",LAST-MSN=%uD").length + int32 + (str ",LAST-PART=%uD").length + int32 + (str "\"\n").length) * v.2.length).sum

/-- The state of `ngx_http_pckg_m3u8_period_get_bitrate_count`. The counters do not wrap, as there are less than 2^32 segments. -/
structure K where
  seg : Nat
  time : Nat
  start : Nat
  last : Nat
  its : List PIter
  gaps : Nat
  rates : Nat

/-- A segment (ngx_http_pckg_m3u8.c:1581-1605). -/
def kstep (milli : Nat) (ests : List (Nat → Nat → Nat)) (d : Nat) (k : K) : K :=
  let stop := (k.time + d) / milli
  let dur := (stop - k.start) % 2 ^ 32
  let g := mget k.seg k.its (ests.map fun f b => f b dur) 0
  let tag := g.1 ≠ 0 ∧ kbps g.1 ≠ 1 ∧ kbps g.1 ≠ k.last
  { seg := k.seg + 1, time := k.time + d, start := stop, last := if tag then kbps g.1 else k.last, its := g.2,
    gaps := if g.1 = 0 then k.gaps + 1 else k.gaps, rates := if tag then k.rates + 1 else k.rates }

/-- An element (ngx_http_pckg_m3u8.c:1577-1606). -/
def krep (milli : Nat) (ests : List (Nat → Nat → Nat)) (d : Nat) : Nat → K → K
  | 0, k => k
  | n + 1, k => krep milli ests d n (kstep milli ests d k)

/-- The elements, with a pending one (ngx_http_pckg_m3u8.c:1573-1607). -/
def kelts (milli : Nat) (ests : List (Nat → Nat → Nat)) : List Elt → K → K
  | [], k => k
  | e :: es, k => kelts milli ests es (krep milli ests e.dur e.count k)

/-- `ngx_http_pckg_m3u8_period_get_bitrate_count` (ngx_http_pckg_m3u8.c:1553-1608), from 0 for each period. -/
def countPeriod (f : Conf) (milli : Nat) (p : Period) (its : List PIter) : K :=
  kelts milli (f.est p.idx) p.elts { seg := p.idx, time := p.time, start := p.time / milli, last := 0, its, gaps := 0, rates := 0 }

/-- The loop of `ngx_http_pckg_m3u8_get_bitrate_size` (ngx_http_pckg_m3u8.c:1634-1651): gaps and bitrates. -/
def countPeriods (f : Conf) (milli : Nat) : List Period → List PIter → Nat × Nat
  | [], _ => (0, 0)
  | p :: ps, its =>
    let k := countPeriod f milli p its
    let r := countPeriods f milli ps k.its
    (k.gaps + r.1, k.rates + r.2)

/-- `ngx_http_pckg_m3u8_get_bitrate_size` (ngx_http_pckg_m3u8.c:1611-1656). -/
def bitrateSize (c : Chan) (f : Conf) : Nat :=
  let r := countPeriods f (c.timescale / 1000) c.periods (c.segInfos.map pinit)
  r.2 * ((str "#EXT-X-BITRATE:").length + 1 + int32) + r.1 * (str "#EXT-X-GAP\n").length

/-- `ngx_http_pckg_m3u8_get_gap_size` (ngx_http_pckg_m3u8.c:1509-1550). -/
def gapSize (c : Chan) : Nat := gapRoom (c.periods.map fun p => (p.idx, segCount p)) (c.segInfos.map pinit) 0 * (str "#EXT-X-GAP\n").length

/-- The size of the buffer (ngx_http_pckg_m3u8.c:2233-2258); there is a last period. -/
def bufSize (c : Chan) (f : Conf) (last : Period) : Nat :=
  (str "#EXTM3U\n#EXT-X-TARGETDURATION:%uD\n#EXT-X-VERSION:%uD\n#EXT-X-MEDIA-SEQUENCE:%uD\n#EXT-X-DISCONTINUITY-SEQUENCE:%uD\n#EXT-X-INDEPENDENT-SEGMENTS\n#EXT-X-ALLOW-CACHE:YES\n").length + 1 +
  4 * int32 + controlSize + ((str "#EXT-X-PART-INF:PART-TARGET=%uD.%03uD\n").length + 2 * int32) +
  ((str "#EXT-X-SKIP:SKIPPED-SEGMENTS=%uD\n").length + int32) + periodSize c f (indexSize last) * c.periods.length +
  segSize c f (indexSize last) * (c.periods.map segCount).sum + trackPartsSize c f + reportsSize c + (str "#EXT-X-ENDLIST\n").length +
  (if mhas (c.segInfos.map pinit) then bitrateSize c f else gapSize c)

end Verif.M3u8
