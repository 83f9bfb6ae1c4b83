import Verif.Sub

/-!
# Names of files of the packager

Names of segments, parts, initialization segments, media playlists and keys as they are written to playlists, and how the name of a
request is read. Requests have no arguments here. `ngx_escape_uri`, `ngx_http_request_t.exten` and the decoding of the path belong
to nginx; the first two are modelled after their documentation, the last one is part of the spec.
-/

namespace Verif.PName

open Verif.Sub (str digits)

abbrev Bytes := List UInt8

/-! ## Writing -/

/-- Bytes that `ngx_escape_uri` with `NGX_ESCAPE_URI_COMPONENT` keeps: letters, digits, `-`, `.`, `_`, `~`. -/
def keeps (c : UInt8) : Bool :=
  (65 ≤ c && c ≤ 90) || (97 ≤ c && c ≤ 122) || (48 ≤ c && c ≤ 57) || c == 45 || c == 46 || c == 95 || c == 126

/-- A hexadecimal digit as `ngx_escape_uri` writes it. -/
def hexDigit (n : UInt8) : UInt8 := if n < 10 then 48 + n else 55 + n

/-- `ngx_escape_uri` of nginx. -/
def escape (b : Bytes) : Bytes := b.flatMap fun c => if keeps c then [c] else [37, hexDigit (c / 16), hexDigit (c % 16)]

/-- `KMP_MEDIA_TYPE_MASK`, ngx_live_kmp.h:19; bits of video, audio and subtitles. -/
def allTypes : Nat := 7

/-- `ngx_pckg_write_media_type_mask` (ngx_pckg_utils.c:134-151). -/
def writeMask (m : Nat) : Bytes :=
  if m = allTypes then []
  else 45 :: ((if m.testBit 0 then [118] else []) ++ (if m.testBit 1 then [97] else []) ++ (if m.testBit 2 then [116] else []))

/-- `ngx_pckg_selector_write` (ngx_pckg_utils.c:164-175) and `ngx_pckg_sep_selector_write` (ngx_pckg_utils.c:185-191). -/
def sepSelector (id : Bytes) (m : Nat) : Bytes := 45 :: 115 :: (escape id ++ writeMask m)

/-- `ngx_pckg_selector_get_size` (ngx_pckg_utils.c:154-161) and `ngx_pckg_sep_selector_get_size` (ngx_pckg_utils.c:178-182). With
NULL, `ngx_escape_uri` counts the bytes to escape. -/
def sepSelectorSize (id : Bytes) : Nat := 1 + (1 + id.length + 2 * (id.filter fun c => !keeps c).length + 1 + 3)

/-- The format `%uD`. -/
def dec (n : Nat) : Bytes := digits 10 (n % 2 ^ 32)

/-- What is named: a file extension, and a segment, a part of one, an initialization segment, a playlist, a key of all tracks, of a
media type, of a variant, or of a track. -/
inductive Name where
  | seg (ext : Bytes) (i : Nat)
  | part (ext : Bytes) (i p : Nat)
  | init (i : Nat)
  | index
  | keyChannel
  | keyType
  | keyVariant
  | keyTrack
deriving Repr, DecidableEq

/-- The name in a playlist: segments ngx_http_pckg_m3u8.c:1891-1894, parts ngx_http_pckg_m3u8.c:1743-1745 (the number of a part is the
one after its index), initialization segments ngx_http_pckg_m3u8.c:2354-2357, playlists ngx_http_pckg_m3u8.c:932-934, 1336-1338 and
2094-2097, keys `ngx_http_pckg_enc_key_uri_write` (ngx_http_pckg_enc.c:630-658). -/
def write (id : Bytes) (m : Nat) : Name → Bytes
  | .seg ext i => str "seg" ++ (45 :: (dec (i + 1) ++ (sepSelector id m ++ ext)))
  | .part ext i p => str "part" ++ (45 :: (dec (i + 1) ++ (45 :: (dec (p + 1) ++ (sepSelector id m ++ ext)))))
  | .init i => str "init" ++ (45 :: (dec (i + 1) ++ (sepSelector id m ++ str ".mp4")))
  | .index => str "index" ++ (sepSelector id m ++ str ".m3u8")
  | .keyChannel => str "enc" ++ str ".key"
  | .keyType => str "enc" ++ (writeMask m ++ str ".key")
  | .keyVariant => str "enc" ++ (sepSelector id allTypes ++ str ".key")
  | .keyTrack => str "enc" ++ (sepSelector id m ++ str ".key")

/-- `ngx_live_variant_validate_id` (ngx_live_channel.c:550-578): at most 32 bytes, no `/` and no `-`. -/
def validId (id : Bytes) : Bool := decide (id.length ≤ 32) && id.all fun c => c != 47 && c != 45

/-! ## Reading -/

/-- `NGX_KSMP_INVALID_SEGMENT_INDEX` and `NGX_KSMP_INVALID_PART_INDEX`, ngx_ksmp.h:69-70. -/
def invalid : Nat := 2 ^ 32 - 1

/-- What a request asks for, of `ngx_pckg_ksmp_req_t`. -/
structure Req where
  seg : Nat := invalid
  part : Nat := invalid
  variants : Bytes := []
  mask : Nat := allTypes
  count : Nat := 3
deriving Repr, DecidableEq

/-- The flags of `ngx_http_pckg_parse_uri_file_name`, ngx_http_pckg_utils.h:16-21. -/
structure Flags where
  index : Bool := false
  part : Bool := false
  variant : Bool := false
  optVariant : Bool := false
  optVariants : Bool := false
  optType : Bool := false

/-- `ngx_http_pckg_parse_uint32` (ngx_http_pckg_utils.c:203-218). -/
def parseU32 : Nat → Bytes → Nat × Bytes
  | v, [] => (v, [])
  | v, c :: b => if 48 ≤ c ∧ c ≤ 57 then parseU32 ((v * 10 + (c.toNat - 48)) % 2 ^ 32) b else (v, c :: b)

/-- `ngx_http_pckg_extract_string` (ngx_http_pckg_utils.c:221-233). -/
def extract (b : Bytes) : Bytes × Bytes := (b.takeWhile (· != 45), b.dropWhile (· != 45))

/-- The macro `expect_char` (ngx_http_pckg_utils.c:236-243). -/
def expect (c : UInt8) : Bytes → Option Bytes
  | [] => none
  | x :: b => if x = c then some b else none

/-- A required number (ngx_http_pckg_utils.c:258-271 and 273-286). -/
def number (b : Bytes) : Option (Nat × Bytes) := do
  let b ← expect 45 b
  let r := parseU32 0 b
  if r.1 = 0 then none else some (r.1 - 1, r.2)

/-- The bit of a media type (ngx_http_pckg_utils.c:375-394). -/
def typeBit (c : UInt8) : Option Nat := if c = 118 then some 0 else if c = 97 then some 1 else if c = 116 then some 2 else none

/-- The loop over media types (ngx_http_pckg_utils.c:373-427): accepted when the name ends with them. -/
def types (allowed : Nat) : Nat → Nat → Bytes → Option (Nat × Nat)
  | _, _, [] => none
  | m, n, c :: b =>
    match typeBit c with
    | none => none
    | some k =>
      if !allowed.testBit k then none
      else if m.testBit k then none
      else match b with
        | [] => some (m + 2 ^ k, n + 1)
        | _ => types allowed (m + 2 ^ k) (n + 1) b

/-- The end of `ngx_http_pckg_parse_uri_file_name` (ngx_http_pckg_utils.c:365-433): media types, or an error. -/
def endTypes (f : Flags) (r : Req) : Bytes → Option Req
  | [] => none
  | c :: b =>
    if (typeBit c).isSome ∧ f.optType then
      (types r.mask 0 0 (c :: b)).map fun t => { r with mask := t.1, count := t.2 }
    else none

/-- The loop over variants (ngx_http_pckg_utils.c:324-350), from behind the dash; `none` when the name is not accepted. The second
component is the rest behind a dash, nothing when the name ended. `k` bounds the count of variants. -/
def variantLoop : Nat → Bytes → Bytes → Option (Bytes × Option Bytes)
  | 0, _, _ => none
  | k + 1, acc, b =>
    let e := extract (b.drop 1)
    let acc := (if acc = [] then [] else acc ++ [45]) ++ e.1
    match e.2 with
    | [] => some (acc, none)
    | [_] => none
    | _ :: c :: r => if c = 115 then variantLoop k acc (c :: r) else some (acc, some (c :: r))

/-- The optional parameters (ngx_http_pckg_utils.c:298-433). -/
def optional (f : Flags) (r : Req) : Bytes → Option Req
  | [] => some r
  | [_] => none
  | d :: c :: b =>
    if d ≠ 45 then none
    else if c = 115 ∧ (f.optVariants ∨ f.optVariant) then
      match variantLoop (b.length + 1) [] (c :: b) with
      | none => none
      | some (ids, none) => some { r with variants := ids }
      | some (ids, some rest) =>
        if f.optVariant ∧ ids.contains 45 then none else endTypes f { r with variants := ids } rest
    else endTypes f r (c :: b)

/-- `ngx_http_pckg_parse_uri_file_name` (ngx_http_pckg_utils.c:246-434); `none` is a bad request. -/
def parseName (f : Flags) (r : Req) (b : Bytes) : Option Req := do
  let (r, b) ← if f.index then (number b).map (fun n => ({ r with seg := n.1 }, n.2)) else some (r, b)
  let (r, b) ← if f.part then (number b).map (fun n => ({ r with part := n.1 }, n.2)) else some (r, b)
  let (r, b) ← if f.variant then do
      let b ← expect 45 b
      let b ← expect 115 b
      some ({ r with variants := (extract b).1 }, (extract b).2)
    else some (r, b)
  optional f r b

/-- Which code answers. -/
inductive Handler where
  | ts | m4s | mp4 | vtt | index | master | key
deriving Repr, DecidableEq

/-- What follows a prefix, `ngx_http_pckg_match_prefix` (ngx_http_pckg_core_module.h:15-17). -/
def behind (p b : Bytes) : Option Bytes := if p.isPrefixOf b then some (b.drop p.length) else none

/-- What is before a suffix, `ngx_http_pckg_match_suffix` (ngx_http_pckg_core_module.h:19-22). -/
def before (s b : Bytes) : Option Bytes := if s.isSuffixOf b then some (b.take (b.length - s.length)) else none

/-- The choice between segments and parts (ngx_http_pckg_mpegts.c:243-257, ngx_http_pckg_webvtt.c:108-122,
ngx_http_pckg_fmp4.c:473-487). -/
def segOrPart (b : Bytes) : Option (Bool × Bytes) :=
  match behind (str "seg") b with
  | some r => some (false, r)
  | none => (behind (str "part") b).map fun r => (true, r)

/-- The flags of segments and parts (ngx_http_pckg_mpegts.c:261-263, ngx_http_pckg_webvtt.c:126-128, ngx_http_pckg_fmp4.c:496-498). -/
def segFlags (part : Bool) : Flags := { index := true, part := part, variant := true, optType := true }

/-- `ngx_http_pckg_fmp4_init_ctx` (ngx_http_pckg_fmp4.c:430-462): a suffix for the format of subtitles is cut. -/
def cutFormat (b : Bytes) : Bytes :=
  match before (str "-wvtt") b with
  | some r => r
  | none => (before (str "-stpp") b).getD b

/-- `ngx_http_pckg_mpegts_parse_ts_request` (ngx_http_pckg_mpegts.c:236-274). -/
def parseTs (r : Req) (b : Bytes) : Option (Handler × Req) := do
  let (part, b) ← segOrPart b
  let r ← parseName (segFlags part) { r with mask := 3, count := 2 } b
  some (.ts, r)

/-- `ngx_http_pckg_webvtt_parse_request` (ngx_http_pckg_webvtt.c:101-138). -/
def parseVtt (r : Req) (b : Bytes) : Option (Handler × Req) := do
  let (part, b) ← segOrPart b
  let r ← parseName (segFlags part) { r with mask := 4, count := 1 } b
  some (.vtt, r)

/-- `ngx_http_pckg_fmp4_parse_m4s_request` (ngx_http_pckg_fmp4.c:465-513). -/
def parseM4s (r : Req) (b : Bytes) : Option (Handler × Req) := do
  let (part, b) ← segOrPart b
  let r ← parseName (segFlags part) r (cutFormat b)
  some (.m4s, r)

/-- `ngx_http_pckg_fmp4_parse_mp4_request` (ngx_http_pckg_fmp4.c:516-547). -/
def parseMp4 (r : Req) (b : Bytes) : Option (Handler × Req) := do
  let b ← behind (str "init") b
  let r ← parseName (segFlags false) r (cutFormat b)
  some (.mp4, r)

/-- `ngx_http_pckg_m3u8_parse_request` (ngx_http_pckg_m3u8.c:2521-2612), without arguments. -/
def parseM3u8 (r : Req) (b : Bytes) : Option (Handler × Req) :=
  match behind (str "index") b with
  | some b => (parseName { variant := true, optType := true } r b).map fun r => (.index, r)
  | none => do
    let b ← behind (str "master") b
    let r ← parseName { optVariants := true, optType := true } r b
    some (.master, r)

/-- `ngx_http_pckg_parse_key_request` (ngx_http_pckg_enc.c:701-731), where keys are served. -/
def parseKey (r : Req) (b : Bytes) : Option (Handler × Req) := do
  let b ← behind (str "enc") b
  let r ← parseName { optVariant := true, optType := true } { r with mask := 3, count := 2 } b
  some (.key, r)

/-- The parser of an extension (ngx_http_pckg_core_module.c:866-876; extensions ngx_http_pckg_mpegts.c:82, ngx_http_pckg_fmp4.c:75-76,
ngx_http_pckg_webvtt.c:49, ngx_http_pckg_m3u8.c:324, ngx_http_pckg_enc.c:130). Other extensions are not modelled. -/
def parserOf (ext : Bytes) : Option (Req → Bytes → Option (Handler × Req)) :=
  if ext = str "ts" then some parseTs
  else if ext = str "m4s" then some parseM4s
  else if ext = str "mp4" then some parseMp4
  else if ext = str "vtt" then some parseVtt
  else if ext = str "m3u8" then some parseM3u8
  else if ext = str "key" then some parseKey
  else none

/-- What is before and after the last `c`. -/
def splitLast (c : UInt8) : Bytes → Option (Bytes × Bytes)
  | [] => none
  | x :: b =>
    match splitLast c b with
    | some (u, v) => some (x :: u, v)
    | none => if x = c then some ([], b) else none

/-- `ngx_http_pckg_core_parse` (ngx_http_pckg_core_module.c:852-937) of the path of a request. -/
def coreParse (uri : Bytes) : Option (Handler × Req) := do
  let (_, name) ← splitLast 47 uri
  let (base, ext) := (splitLast 46 name).getD (name, [])
  let p ← parserOf ext
  let hr ← p {} base
  if hr.2.part ≠ invalid ∧ hr.2.count ≠ 1 then none else some hr

end Verif.PName
