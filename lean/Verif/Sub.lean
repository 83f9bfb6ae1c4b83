import Verif.Basic

/-!
# Subtitles of the packager

Model of `/repo/nginx-pckg-module/src/media/subtitle/subtitle_format.c` (cues are cut at the borders of a segment),
`webvtt_builder.c` (WebVTT segments), `ttml_builder.c` (TTML documents), and of the parser of atoms,
`/repo/nginx-pckg-module/src/media/mp4/mp4_parser_base.c`.

Simplified: a frame has its data (the sources of frames give it, subtitle_format.c:44-74); the frames of a track are one list;
times are integers (no overflow of `int64_t`); allocation failures are left out.
-/

namespace Verif.Sub

abbrev Bytes := List UInt8

/-- The bytes of a string. -/
def str (s : String) : Bytes := s.toList.map fun c => UInt8.ofNat c.toNat

/-- `input_frame_t` of a subtitle track, frames_source.h:8-13: `dur` is the time to the next cue, `delay` the time the cue is shown. -/
structure Frame where
  dur : Nat
  delay : Nat
  data : Bytes
deriving Repr, DecidableEq

/-- `media_segment_track_t`, media_format.h:117-127; `header` is the `extra_data` of the media info. -/
structure Track where
  timescale : Nat
  header : Bytes
  start : Int
  frames : List Frame
deriving Repr, DecidableEq

/-- Conversion to `uint32_t`. -/
def u32 (x : Int) : Nat := (x % 2 ^ 32).toNat

/-! ## Cues are cut at the borders of a segment -/

/-- `dst_frames`, `track->start_dts` and `last_cue_start`, subtitle_format.c:120-215. -/
structure Trim where
  out : List Frame
  start : Int
  last : Int
deriving Repr, DecidableEq

/-- A cue is added, subtitle_format.c:195-214. -/
def Trim.add (w : Trim) (cs ce : Int) (data : Bytes) : Trim :=
  let new : Frame := ⟨0, u32 (ce - cs), data⟩
  match w.out.getLast? with
  | none => ⟨[new], cs, cs⟩
  | some f => ⟨w.out.dropLast ++ [{ f with dur := u32 (cs - w.last) }, new], w.start, cs⟩

/-- The loop of `subtitle_trim_timestamps_track`, subtitle_format.c:132-215. -/
def trimGo (s e : Int) : Int → List Frame → Trim → Trim
  | _, [], w => w
  | cur, f :: fs, w =>
    if e ≤ cur then w
    else
      let cs := if cur < s then s else cur
      let ce := if e < cur + f.delay then e else cur + f.delay
      if ce ≤ cs then trimGo s e (cur + f.dur) fs w
      else trimGo s e (cur + f.dur) fs (w.add cs ce f.data)

/-- `subtitle_trim_timestamps` for one track, subtitle_format.c:84-260, of the segment from `s` that lasts `dur`. -/
def trim (s : Int) (dur : Nat) (t : Track) : Track :=
  if dur = 0 then t
  else
    let w := trimGo s (s + dur) t.start t.frames ⟨[], t.start, 0⟩
    { t with frames := w.out, start := if w.out = [] then s else w.start }

/-! ## Atoms -/

/-- A number, most significant byte first, read_stream.h. -/
def num (b : Bytes) : Nat := b.foldl (fun n x => n * 256 + x.toNat) 0

/-- The header of an atom, mp4_parser_base.c:18-58: the size of its content and the bytes after the header, or `none` for VOD_BAD_DATA. -/
def atomHead (b : Bytes) : Option (Nat × Bytes) :=
  let sz := num (b.take 4)
  let r := b.drop 8
  if sz = 1 then
    if r.length < 8 then none
    else if num (r.take 8) < 16 then none
    else some (num (r.take 8) - 16, r.drop 8)
  else if sz = 0 then some (r.length, r)
  else if sz < 8 then none
  else some (sz - 8, r)

/-- `mp4_parser_parse_atoms`, mp4_parser_base.c:4-79: the atoms (name, content), or `none` for VOD_BAD_DATA. The first argument bounds
the number of turns. -/
def atoms : Nat → Bytes → Option (List (Bytes × Bytes))
  | 0, _ => some []
  | n + 1, b =>
    if b.length < 8 then some []
    else
      match atomHead b with
      | none => none
      | some (size, r) =>
        if r.length < size then none else (atoms n (r.drop size)).map (((b.drop 4).take 4, r.take size) :: ·)

/-- `mp4_atom_t` of a name, as `mp4_parser_get_atoms_callback` leaves it (mp4_parser_base.c:81-127): the last one, or empty. -/
def lastOf (nm : Bytes) (l : List (Bytes × Bytes)) : Bytes := ((l.filter (·.1 = nm)).getLast?.map (·.2)).getD []

/-- `webvtt_parse_cue`, webvtt_builder.c:31-54: payload and settings. -/
def parseCue (b : Bytes) : Option (Bytes × Bytes) := do
  let l ← atoms b.length b
  let cs ← (l.filter (·.1 = str "vttc")).mapM fun x => atoms x.2.length x.2
  some (lastOf (str "payl") cs.flatten, lastOf (str "sttg") cs.flatten)

/-- The payload and the settings of a cue that is written, webvtt_builder.c:197-200, ttml_builder.c:149-152. -/
def cueOf (b : Bytes) : Option (Bytes × Bytes) :=
  match parseCue b with
  | none => none
  | some c => if c.1 = [] then none else some c

/-! ## Times -/

/-- The decimal digits of a number; `k` bounds their count. -/
def digits : Nat → Nat → Bytes
  | 0, _ => []
  | k + 1, n => if n < 10 then [UInt8.ofNat (48 + n)] else digits k (n / 10) ++ [UInt8.ofNat (48 + n % 10)]

/-- The format `%0<w>uD` of `ngx_sprintf`. -/
def padded (w n : Nat) : Bytes := List.replicate (w - (digits 10 n).length) 48 ++ digits 10 n

/-- `rescale_time` of a time to milliseconds, media_format.h:9, in 64 bits. A timescale of 0 is not considered. -/
def millis (time : Int) (timescale : Nat) : Nat := ((time % 2 ^ 64).toNat * 1000 % 2 ^ 64 + timescale / 2) % 2 ^ 64 / timescale

/-- What is written for a number of milliseconds, webvtt_builder.c:62-66, ttml_builder.c:39-43. -/
def clock (t : Nat) : Bytes :=
  padded 2 (t / 3600000 % 2 ^ 32) ++ str ":" ++ padded 2 (t / 60000 % 60) ++ str ":" ++ padded 2 (t / 1000 % 60) ++ str "." ++ padded 3 (t % 1000)

/-- `webvtt_builder_write_timestamp` and `ttml_builder_write_timestamp`, webvtt_builder.c:57-67, ttml_builder.c:34-44. -/
def stamp (time : Int) (timescale : Nat) : Bytes := clock (millis time timescale)

/-! ## WebVTT -/

/-- `webvtt_split_first_line`, webvtt_builder.c:70-103. -/
def splitFirst : Bytes → Bytes × Bytes
  | [] => ([], [])
  | c :: b =>
    if c = 13 ∧ b.head? = some 10 then ([], b.drop 1)
    else if c = 13 ∨ c = 10 then ([], b)
    else (c :: (splitFirst b).1, (splitFirst b).2)

/-- `WEBVTT_TIMESTAMP_MAP`, webvtt_builder.c:5. -/
def stampMap : Bytes := [13, 10] ++ str "X-TIMESTAMP-MAP=MPEGTS:0,LOCAL:00:00:00.000" ++ [13, 10]

/-- What is written for a cue, webvtt_builder.c:203-222. -/
def vttCue (timescale : Nat) (cs ce : Int) (c : Bytes × Bytes) : Bytes :=
  stamp cs timescale ++ str " --> " ++ stamp ce timescale ++ (if 0 < c.2.length then str " " ++ c.2 else []) ++ [10] ++ c.1 ++ [10, 10]

/-- The loop over frames of `webvtt_builder_build`, webvtt_builder.c:159-223. -/
def vttCues (timescale : Nat) : Int → List Frame → Bytes
  | _, [] => []
  | cur, f :: fs =>
    (match cueOf f.data with
      | none => []
      | some c => vttCue timescale cur (cur + f.delay) c) ++ vttCues timescale (cur + f.dur) fs

/-- `base_time`, webvtt_builder.c:151: an unsigned division, as the divisor is unsigned. -/
def baseTime (start : Int) : Int :=
  let b := (start % 2 ^ 64) / 2 ^ 33 * 2 ^ 33
  if b < 2 ^ 63 then b else b - 2 ^ 64

/-- The bytes that `webvtt_builder_build` writes, webvtt_builder.c:141-223. -/
def vttBytes (t : Track) : Bytes :=
  (splitFirst t.header).1 ++ stampMap ++ (splitFirst t.header).2 ++ [13, 10] ++ vttCues t.timescale (t.start - baseTime t.start) t.frames

/-- `WEBVTT_TIMESTAMP_MAX_SIZE`, webvtt_builder.c:8; `VOD_INT32_LEN` is 11. -/
def stampMax : Nat := 11 + 10

/-- `result_size`, webvtt_builder.c:130-132. -/
def vttSize (t : Track) : Nat :=
  t.header.length + stampMap.length + 2 + (t.frames.map (·.data.length)).sum + (stampMax * 2 + 5 + 4) * t.frames.length

/-- `webvtt_builder_build`, webvtt_builder.c:106-246: the result, or undefined behaviour if it does not fit its buffer. -/
def vttBuild (t : Track) : Res Bytes := if vttSize t < (vttBytes t).length then .ub else .ok (vttBytes t)

/-! ## TTML -/

/-- `TTML_HEADER`, ttml_builder.c:9-14. -/
def ttmlHeader : Bytes :=
  str "<?xml version=\"1.0\" encoding=\"utf-8\"?>\n<tt xmlns=\"http://www.w3.org/ns/ttml\">\n  <head/>\n  <body>\n    <div>\n"

/-- `TTML_FOOTER`, ttml_builder.c:16-19. -/
def ttmlFooter : Bytes := str "    </div>\n  </body>\n</tt>\n"

/-- `ttml_builder_strip_tags`, ttml_builder.c:47-78; `tag` is whether a tag is skipped. -/
def strip : Bool → Bytes → Bytes
  | _, [] => []
  | false, c :: b => if c = 60 then strip true b else c :: strip false b
  | true, c :: b => if c = 62 then strip false b else strip true b

/-- What is written for a cue, ttml_builder.c:155-165. -/
def ttmlCue (timescale : Nat) (cs ce : Int) (c : Bytes × Bytes) : Bytes :=
  str "      <p begin=\"" ++ stamp cs timescale ++ str "\" end=\"" ++ stamp ce timescale ++ str "\">" ++ strip false c.1 ++ str "</p>\n"

/-- The loop over frames of `ttml_builder_write`, ttml_builder.c:110-166. -/
def ttmlCues (timescale : Nat) : Int → List Frame → Bytes
  | _, [] => []
  | cur, f :: fs =>
    (match cueOf f.data with
      | none => []
      | some c => ttmlCue timescale cur (cur + f.delay) c) ++ ttmlCues timescale (cur + f.dur) fs

/-- The bytes that `ttml_builder_write` writes, ttml_builder.c:91-173. -/
def ttmlBytes (t : Track) : Bytes := ttmlHeader ++ ttmlCues t.timescale t.start t.frames ++ ttmlFooter

/-- `ttml_builder_get_max_size`, ttml_builder.c:81-88, with `TTML_P_MAX_SIZE` (26-31). -/
def ttmlSize (t : Track) : Nat :=
  ttmlHeader.length + (16 + 7 + 2 + stampMax * 2 + 5) * t.frames.length + (t.frames.map (·.data.length)).sum + ttmlFooter.length

/-- `ttml_builder_convert_segment` for one track, ttml_builder.c:176-243: the document, or undefined behaviour if it does not fit. -/
def ttmlBuild (t : Track) : Res Bytes := if ttmlSize t < (ttmlBytes t).length then .ub else .ok (ttmlBytes t)

/-- The response of `ngx_http_pckg_webvtt_init_frame_processor`, ngx_http_pckg_webvtt.c:60-91. -/
def vttResponse (s : Int) (dur : Nat) (t : Track) : Res Bytes := vttBuild (trim s dur t)

/-- The document of an fMP4 segment with TTML, ngx_http_pckg_fmp4.c:283-301. -/
def ttmlResponse (s : Int) (dur : Nat) (t : Track) : Res Bytes := ttmlBuild (trim s dur t)

end Verif.Sub
