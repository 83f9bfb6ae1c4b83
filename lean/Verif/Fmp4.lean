import Verif.Basic
import Verif.MtsFilt

/-!
# Fragments of the packager (fMP4 segments)

Model of `/repo/nginx-pckg-module/src/media/mp4/mp4_muxer.c`: the layout of the frames of several tracks, the
header of a fragment, and the second pass that writes the data of the frames; with the source of frames of
`/repo/nginx-pckg-module/src/ngx_http_pckg_core_module.c:995-1055`.

Simplified: the frames of a track are one list (`frames.part` with `next` = NULL, as
ngx_http_pckg_core_module.c:1333-1334 and subtitle_format.c:223-225 make it), and `frame_count` is its length. A read of the
source gives a whole frame (`frame_done` is always set, ngx_http_pckg_core_module.c:1041-1043). Allocation failure and errors of
the writer are left out. Media types are video, audio, and subtitles with WebVTT (`cue`); other subtitles are
written as audio (mp4_muxer.c:900-911, 1039-1052).
-/

namespace Verif.Fmp4

abbrev Bytes := List UInt8

/-- `write_be32`, write_stream.h:26-32. -/
def be32 (n : Nat) : Bytes :=
  [UInt8.ofNat (n / 2 ^ 24), UInt8.ofNat (n / 2 ^ 16), UInt8.ofNat (n / 2 ^ 8), UInt8.ofNat n]

/-- `write_be64`, write_stream.h:34-38. -/
def be64 (n : Nat) : Bytes := be32 (n / 2 ^ 32) ++ be32 n

/-- Conversion to `uint32_t`. -/
def u32 (x : Int) : Nat := (x % 2 ^ 32).toNat

/-- Conversion to `uint64_t`. -/
def u64 (x : Int) : Nat := (x % 2 ^ 64).toNat

/-- The four bytes of a name, mp4_write_stream.h:7-8. -/
def name (a b c d : Char) : Bytes :=
  [UInt8.ofNat a.toNat, UInt8.ofNat b.toNat, UInt8.ofNat c.toNat, UInt8.ofNat d.toNat]

/-- `write_atom_header`, mp4_write_stream.h:10-14. -/
def atom (size : Nat) (nm : Bytes) : Bytes := be32 size ++ nm

/-- `input_frame_t`, frames_source.h:8-13. -/
structure Frame where
  size : Nat
  key : Bool
  dur : Nat
  delay : Nat
deriving Repr, DecidableEq

/-- How a track is written, mp4_muxer.c:894-912. -/
inductive Kind where
  | video | audio | cue
deriving Repr, DecidableEq

/-- `media_segment_track_t` with what is used of its media info, media_format.h:117-127. `addr` is the address of the data of the
frames, `avail` is their length (ngx_http_pckg_core_module.c:1010-1011). -/
structure Track where
  kind : Kind
  timescale : Nat
  start : Int
  frames : List Frame
  addr : Nat
  avail : Nat
deriving Repr, DecidableEq

/-- `media_segment_t`, media_format.h:129-137. -/
structure Seg where
  index : Nat
  tracks : List Track
  info : Bytes
deriving Repr, DecidableEq

/-! ## Layout -/

/-- Part of `mp4_muxer_stream_state_t`, mp4_muxer.c:19-46: frames not yet used (`cur_frame`), and the time of the next one. -/
structure Cur where
  timescale : Nat
  left : List Frame
  next : Nat
deriving Repr, DecidableEq

/-- `mp4_muxer_init_track`, mp4_muxer.c:506-524. -/
def Cur.init (t : Track) : Cur := ⟨t.timescale, t.frames, u64 t.start⟩

/-- The loop of `mp4_muxer_choose_stream`, mp4_muxer.c:534-560, from stream `i` on. `best` is `min_dts` and
`min_time_offset`. -/
def chooseGo (sel : Option Nat) : List Cur → Nat → Option (Nat × Nat) → Option (Nat × Nat)
  | [], _, best => best
  | s :: ss, i, best =>
    if s.left = [] then chooseGo sel ss (i + 1) best
    else
      let t := if sel = some i then s.next else (s.next + s.timescale / 4) % 2 ^ 64
      match best with
      | none => chooseGo sel ss (i + 1) (some (i, t))
      | some (j, m) => chooseGo sel ss (i + 1) (if s.next < m then some (i, t) else some (j, m))

/-- `mp4_muxer_choose_stream`, mp4_muxer.c:527-569: the stream of the next frame, unless there are no more frames. -/
def choose (sel : Option Nat) (ss : List Cur) : Option Nat := (chooseGo sel ss 0 none).map (·.1)

/-- UINT_MAX -/
def uintMax : Nat := 2 ^ 32 - 1

/-- `mp4_muxer_stream_state_t`: with the offsets that were given out, and `last_frame_size`. -/
structure Str where
  cur : Cur
  offs : List Nat
  lastSize : Nat
deriving Repr, DecidableEq

/-- Lines 685-706 of `mp4_muxer_init_state`, mp4_muxer.c. -/
def Str.init (t : Track) : Str := ⟨.init t, [], uintMax⟩

/-- The state of `mp4_calculate_output_offsets`, with the number of atoms `trun`. -/
structure Lay where
  strs : List Str
  sel : Option Nat
  off : Nat
  truns : Nat
deriving Repr, DecidableEq

/-- Whether a frame starts an atom `trun`, mp4_muxer.c:600-605. `cur_frame_output_offset[-1]` is the last offset; with no
offset `last_frame_size` is UINT_MAX, and nothing is read. -/
def Str.starts (s : Str) (off : Nat) : Bool :=
  s.lastSize = uintMax || s.offs.getLast?.map (fun o => (o + s.lastSize) % 2 ^ 32) ≠ some off

/-- One turn of the loop of `mp4_calculate_output_offsets`, mp4_muxer.c:585-618; `none` when there are no more frames. -/
def Lay.step (l : Lay) : Option Lay :=
  match choose l.sel (l.strs.map (·.cur)) with
  | none => none
  | some i =>
    match l.strs[i]? with
    | none => none
    | some s =>
      match s.cur.left with
      | [] => none
      | f :: fs =>
        some ⟨l.strs.set i ⟨⟨s.cur.timescale, fs, (s.cur.next + f.dur) % 2 ^ 64⟩, s.offs ++ [l.off], f.size⟩, some i,
          (l.off + f.size) % 2 ^ 32, if s.starts l.off then l.truns + 1 else l.truns⟩

/-- The loop of `mp4_calculate_output_offsets`; `n` is a bound on the number of turns. -/
def Lay.run : Nat → Lay → Lay
  | 0, l => l
  | n + 1, l =>
    match l.step with
    | none => l
    | some l => Lay.run n l

/-- Number of frames of streams. -/
def framesLeft (ss : List Cur) : Nat := (ss.map fun s => s.left.length).sum

/-- `mp4_calculate_output_offsets` on a new state, mp4_muxer.c:572-628. -/
def layout (g : Seg) : Lay :=
  let ss := g.tracks.map Str.init
  Lay.run (framesLeft (ss.map (·.cur))) ⟨ss, none, 0, 0⟩

/-! ## Header -/

/-- Size of the entry of a frame in an atom `trun`, mp4_muxer.c:75-91. -/
def Kind.entrySize : Kind → Nat
  | .video => 16
  | .audio => 8
  | .cue => 12

/-- Version and flags of atoms `trun`, mp4_muxer.c:11-13, 316. -/
def Kind.flags : Kind → Nat
  | .video => 2 ^ 24 + 0xf01
  | .audio => 0x301
  | .cue => 0xb01

/-- `mp4_muxer_write_video_trun_frame`, mp4_muxer.c:223-240. -/
def videoEntry (initial : Nat) (f : Frame) : Bytes :=
  be32 f.dur ++ be32 f.size ++ be32 (if f.key then 0x02000000 else 0x01010000) ++ be32 (u32 (f.delay - initial))

/-- `mp4_muxer_write_audio_trun_frame`, mp4_muxer.c:243-249. -/
def audioEntry (f : Frame) : Bytes := be32 f.dur ++ be32 f.size

/-- `mp4_muxer_write_subtitle_trun_frame`, mp4_muxer.c:252-259. -/
def cueEntry (delay : Nat) (f : Frame) : Bytes := be32 f.delay ++ be32 f.size ++ be32 delay

/-- The entries of cues, with the sum of durations before them, mp4_muxer.c:440, 482-486. -/
def cueEntries : Nat → List Frame → List Bytes
  | _, [] => []
  | d, f :: fs => cueEntry d f :: cueEntries ((d + f.dur) % 2 ^ 32) fs

/-- The entries of the frames of a track, mp4_muxer.c:284-291, 327, 404, 482. -/
def entries (t : Track) : List Bytes :=
  match t.kind with
  | .video => t.frames.map (videoEntry (match t.frames with | [] => 0 | f :: _ => f.delay))
  | .audio => t.frames.map audioEntry
  | .cue => cueEntries 0 t.frames

/-- `mp4_muxer_write_trun_header`, mp4_muxer.c:202-220. -/
def trunHeader (k : Kind) (off count : Nat) : Bytes :=
  atom (8 + 12 + k.entrySize * count) (name 't' 'r' 'u' 'n') ++ be32 k.flags ++ be32 count ++ be32 off

/-- The state of the functions that write atoms `trun`, mp4_muxer.c:274-278: bytes of closed atoms, the open
one (start, number of frames, entries), and `cur_offset`. -/
structure Trun where
  done : Bytes
  opn : Option (Nat × Nat × Bytes)
  cur : Nat

/-- The open atom is closed, mp4_muxer.c:308-317, 333-342. -/
def Trun.close (k : Kind) (base : Nat) (w : Trun) : Bytes :=
  match w.opn with
  | none => w.done
  | some (st, n, body) => w.done ++ (trunHeader k (base + st) n ++ body)

/-- One frame, with its offset and its entry, mp4_muxer.c:306-330. -/
def Trun.frame (k : Kind) (base : Nat) (w : Trun) (off size : Nat) (entry : Bytes) : Trun :=
  match w.opn with
  | some (st, n, body) =>
    if off ≠ w.cur then ⟨w.close k base, some (off, 1, entry), (off + size) % 2 ^ 32⟩
    else ⟨w.done, some (st, n + 1, body ++ entry), (w.cur + size) % 2 ^ 32⟩
  | none => ⟨w.done, some (off, 1, entry), (off + size) % 2 ^ 32⟩

/-- The loop over the frames of a track. -/
def Trun.frames (k : Kind) (base : Nat) : Trun → List (Nat × Nat × Bytes) → Trun
  | w, [] => w
  | w, (o, n, e) :: fs => Trun.frames k base (w.frame k base o n e) fs

/-- `mp4_muxer_write_video_trun_atoms`, `mp4_muxer_write_audio_trun_atoms` and `mp4_muxer_write_subtitle_trun_atoms`,
mp4_muxer.c:262-501, for the offsets of the frames of track `t`. -/
def truns (base : Nat) (t : Track) (offs : List Nat) : Bytes :=
  (Trun.frames t.kind base ⟨[], none, uintMax⟩ (offs.zip ((t.frames.map (·.size)).zip (entries t)))).close t.kind base

/-- `mp4_fragment_write_mfhd_atom`, mp4_muxer.c:153-162. -/
def mfhd (index : Nat) : Bytes := atom 16 (name 'm' 'f' 'h' 'd') ++ be32 0 ++ be32 index

/-- `mp4_fragment_write_tfhd_atom`, mp4_muxer.c:165-187. -/
def tfhd (id sdi : Nat) : Bytes :=
  if 0 < sdi then atom 20 (name 't' 'f' 'h' 'd') ++ be32 0x020002 ++ be32 id ++ be32 sdi
  else atom 16 (name 't' 'f' 'h' 'd') ++ be32 0x020000 ++ be32 id

/-- `mp4_fragment_write_tfdt64_atom`, mp4_muxer.c:190-199. -/
def tfdt (t : Nat) : Bytes := atom 20 (name 't' 'f' 'd' 't') ++ be32 0x01000000 ++ be64 t

/-- `mp4_muxer_get_earliest_pres_time`, mp4_muxer.c:718-736, and the lines after its calls (920-923, 1024-1027). -/
def Track.earliest (t : Track) : Nat :=
  (match t.kind, t.frames with
    | .video, f :: _ => t.start + f.delay
    | _, _ => t.start).toNat

/-- One turn of the loop over streams of `mp4_muxer_build_fragment_header`, mp4_muxer.c:1007-1064, for stream `i`. `extra` are
the bytes that `write_extra_traf_atoms_callback` writes. -/
def traf (base sdi : Nat) (extra : Bytes) (i : Nat) (t : Track) (offs : List Nat) : Bytes :=
  let body := tfhd (i + 1) sdi ++ tfdt t.earliest ++ truns base t offs ++ extra
  atom (8 + body.length) (name 't' 'r' 'a' 'f') ++ body

/-- The loop over streams. -/
def trafs (base sdi : Nat) (extra : Bytes) : Nat → List Track → List Str → Bytes
  | i, t :: ts, s :: ss => traf base sdi extra i t s.offs ++ trafs base sdi extra (i + 1) ts ss
  | _, _, _ => []

/-- `moof_atom_size`, mp4_muxer.c:876-913. -/
def moofSize (g : Seg) (sdi extraSize truns : Nat) : Nat :=
  8 + (8 + 8) + (8 + (if 0 < sdi then 20 else 16) + (8 + 12) + extraSize) * g.tracks.length + (8 + 12) * truns +
    (g.tracks.map fun t => t.frames.length * t.kind.entrySize).sum

/-- `styp_atom`, mp4_muxer.c:141-148. -/
def styp : Bytes :=
  atom 24 (name 's' 't' 'y' 'p') ++ name 'm' 's' 'd' 'h' ++ be32 0 ++ name 'm' 's' 'd' 'h' ++ name 'm' 's' 'i' 'x'

/-- `dash_packager_write_sidx_atom` and `dash_packager_write_sidx64_atom`, mp4_muxer.c:739-782, chosen as in lines 925 and
989-999. -/
def sidx (timescale time size dur : Nat) : Bytes :=
  if uintMax < time then
    atom 52 (name 's' 'i' 'd' 'x') ++ be32 0x01000000 ++ be32 1 ++ be32 timescale ++ be64 time ++ be64 0 ++ be32 1 ++ be32 size ++
      be32 dur ++ be32 0x90000000
  else
    atom 44 (name 's' 'i' 'd' 'x') ++ be32 0 ++ be32 1 ++ be32 timescale ++ be32 time ++ be32 0 ++ be32 1 ++ be32 size ++
      be32 dur ++ be32 0x90000000

/-- `EMSG_ID3_SCHEME_URI`, mp4_muxer.c:9, without the null. -/
def scheme : Bytes := "https://developer.apple.com/streaming/emsg-id3".toList.map fun c => UInt8.ofNat c.toNat

/-- `mp4_muxer_write_emsg_atom`, mp4_muxer.c:811-840, with `mp4_muxer_write_id3_text_frame` (785-808), which writes the same bytes as
the header of the filter for MPEG-TS. -/
def emsg (size index : Nat) (t : Track) (info : Bytes) : Bytes :=
  atom size (name 'e' 'm' 's' 'g') ++ be32 0x01000000 ++ be32 t.timescale ++ be64 t.start.toNat ++ be32 1 ++
    be32 index ++ scheme ++ [0] ++ [0] ++ (Mts.id3Header info.length ++ info)

/-- The sizes that `mp4_muxer_build_fragment_header` computes: `styp`, `emsg`, `sidx`, `moof`, `mdat`; mp4_muxer.c:868-943. -/
def sizes (g : Seg) (sdi extraSize : Nat) : Nat × Nat × Nat × Nat × Nat :=
  let l := layout g
  (if g.tracks.length = 1 then 24 else 0,
    (match g.tracks with
      | t :: _ => if g.info ≠ [] ∧ t.frames ≠ [] then 8 + 24 + 47 + 1 + 21 + g.info.length else 0
      | [] => 0),
    (match g.tracks with
      | [t] => 8 + (if uintMax < t.earliest then 44 else 36)
      | _ => 0),
    moofSize g sdi extraSize l.truns, l.off + 8)

/-- `total_fragment_size`, mp4_muxer.c:945-950. -/
def totalSize (g : Seg) (sdi extraSize : Nat) : Nat :=
  let (styp, emsg, sidx, moof, mdat) := sizes g sdi extraSize
  styp + emsg + sidx + moof + mdat

/-- `total_frames_duration` of the first stream, mp4_muxer.c:620-623. -/
def totalDur (g : Seg) : Nat :=
  match g.tracks, (layout g).strs with
  | t :: _, s :: _ => u64 (s.cur.next - u64 t.start)
  | _, _ => 0

/-- The bytes that `mp4_muxer_build_fragment_header` writes, mp4_muxer.c:974-1069. `extra` gives the bytes of
`write_extra_traf_atoms_callback` for `moof_atom_size`, `extraSize` is `extra_traf_atoms_size`. -/
def headerBytes (g : Seg) (sdi extraSize : Nat) (extra : Nat → Bytes) : Bytes :=
  let l := layout g
  let (stypSize, emsgSize, sidxSize, moof, mdat) := sizes g sdi extraSize
  (if 0 < stypSize then styp else []) ++
  (match g.tracks with
    | t :: _ => if 0 < emsgSize then emsg emsgSize g.index t g.info else []
    | [] => []) ++
  (match g.tracks with
    | t :: _ => if 0 < sidxSize then sidx t.timescale t.earliest (moof + mdat) (totalDur g) else []
    | [] => []) ++
  (atom moof (name 'm' 'o' 'o' 'f') ++ mfhd g.index ++ trafs (moof + 8) sdi (extra moof) 0 g.tracks l.strs) ++
  atom mdat (name 'm' 'd' 'a' 't')

/-- `mp4_muxer_build_fragment_header` for a response with a body, mp4_muxer.c:842-1080: the buffer has `result_size` bytes, more are
undefined, fewer are an error. -/
def header (g : Seg) (sdi extraSize : Nat) (extra : Nat → Bytes) : Res Bytes :=
  let b := headerBytes g sdi extraSize extra
  let (styp, emsg, sidx, moof, _) := sizes g sdi extraSize
  let size := styp + emsg + sidx + moof + 8
  if size < b.length then .ub else if b.length ≠ size then .err else .ok b

/-! ## Data -/

/-- A stream of the second pass, with the state of the source of the frames (`ngx_http_pckg_read_source_t`,
ngx_http_pckg_core_module.c:79-84). -/
structure Rd where
  cur : Cur
  pos : Nat
  avail : Nat
deriving Repr, DecidableEq

/-- `mp4_muxer_reset` (mp4_muxer.c:630-645) with `ngx_http_pckg_source_init` (ngx_http_pckg_core_module.c:997-1014). -/
def Rd.init (t : Track) : Rd := ⟨.init t, t.addr, t.avail⟩

/-- A range of memory, with the stream it is written for, and whether the stream has no more frames after it. -/
structure Chunk where
  stream : Nat
  addr : Nat
  len : Nat
  last : Bool
deriving Repr, DecidableEq

/-- `mp4_muxer_start_frame` with the read that follows, mp4_muxer.c:1176-1207, ngx_http_pckg_core_module.c:1017-1049; `ok none` when there
are no more frames. -/
def readNext (sel : Option Nat) (ss : List Rd) : Res (Option (Chunk × Nat × List Rd)) :=
  match choose sel (ss.map (·.cur)) with
  | none => .ok none
  | some i =>
    match ss[i]? with
    | none => .ok none
    | some s =>
      match s.cur.left with
      | [] => .ok none
      | f :: fs =>
        if s.avail < f.size then .err
        else .ok (some (⟨i, s.pos, f.size, fs.isEmpty⟩, i,
          ss.set i ⟨⟨s.cur.timescale, fs, (s.cur.next + f.dur) % 2 ^ 64⟩, s.pos + f.size, s.avail - f.size⟩))

/-- The local variables `write_buffer`, `write_buffer_size` and `last_stream` of `mp4_muxer_process_frames` (`none`: size 0), and
what was written: stream, address, size. -/
structure Wr where
  buf : Option (Nat × Nat × Nat)
  out : List (Nat × Nat × Nat)
deriving Repr, DecidableEq

/-- The write buffer is written, mp4_muxer.c:1273-1278, 1301-1311. -/
def Wr.flush (w : Wr) : Wr :=
  match w.buf with
  | none => w
  | some b => ⟨none, w.out ++ [b]⟩

/-- A new write buffer; a size of 0 is the same as none. -/
def Wr.start (w : Wr) (c : Chunk) : Wr := if c.len = 0 then ⟨none, w.out⟩ else ⟨some (c.stream, c.addr, c.len), w.out⟩

/-- What `mp4_muxer_process_frames` does with a frame it has read, mp4_muxer.c:1255-1292. -/
def Wr.put (reuse perStream : Bool) (w : Wr) (c : Chunk) : Wr :=
  let w :=
    if reuse then { w with out := w.out ++ [(c.stream, c.addr, c.len)] }
    else
      match w.buf with
      | some (s, a, n) =>
        if a + n = c.addr ∧ (s = c.stream ∨ !perStream) then { w with buf := some (s, a, n + c.len) }
        else w.flush.start c
      | none => w.start c
  if c.last then w.flush else w

/-- The loop of `mp4_muxer_process_frames`, mp4_muxer.c:1209-1332; `n` is a bound on the number of turns. -/
def process (reuse perStream : Bool) : Nat → Option Nat → List Rd → Wr → Res Wr
  | 0, _, _, w => .ok w
  | n + 1, sel, ss, w => do
    match ← readNext sel ss with
    | none => .ok w
    | some (c, i, ss) => process reuse perStream n (some i) ss (w.put reuse perStream c)

/-- What is written for the frames of a segment: stream, address and size of every write. -/
def data (reuse perStream : Bool) (g : Seg) : Res (List (Nat × Nat × Nat)) := do
  let ss := g.tracks.map Rd.init
  let w ← process reuse perStream (framesLeft (ss.map (·.cur))) none ss ⟨none, []⟩
  .ok w.out

/-- Bytes of memory. -/
def bytesAt (mem : Nat → UInt8) (a n : Nat) : Bytes := (List.range n).map fun i => mem (a + i)

/-- The response of `ngx_http_pckg_fmp4_init_frame_processor` without encryption, ngx_http_pckg_fmp4.c:386-401, with
`mp4_muxer_init_fragment`, mp4_muxer.c:1122-1173: the header, and what is written after it. -/
def response (mem : Nat → UInt8) (g : Seg) : Res Bytes := do
  let h ← header g 1 0 fun _ => []
  let d ← data false false g
  .ok (h ++ d.flatMap fun w => bytesAt mem w.2.1 w.2.2)

end Verif.Fmp4
