import Verif.Basic

/-!
# MPEG-TS to KMP: video

The PES handler for AVC and HEVC of nginx-mpegts-kmp-module/src/ngx_ts_kmp_track.c: `ngx_ts_kmp_track_heavc_pes_handler` and the functions it
calls.

A position in a chain of buffers (`cl` and `pos`) is the list of the rest of its buffer and of the buffers after it. What the parsers of
parameter sets and of SEI give (`get_ps_id`, `ngx_ts_heavc_sei_detect_cea`, `ngx_ts_avc_decode_params`, `ngx_ts_hevc_hvcc_write`) are
functions of the bytes, which are arbitrary here. Writes to the KMP track succeed; what is written is the list `out`. PES packets are shorter
than 2^31 bytes. Not modelled: publishing, `created`, logs.
-/

namespace Verif.TsKmp

abbrev Chain := List (List UInt8)

/-- `ngx_ts_kmp_heavc_nalu_t`, ngx_ts_kmp_track.c:48-53: the position, the size and the type. -/
structure Nalu where
  pos : Chain
  size : Nat
  type : Nat
deriving DecidableEq, Repr

/-- What is sent about a track: `track->media_info` and `track->extra_data`. -/
structure Info where
  width : Nat
  height : Nat
  extra : List UInt8
  cea : Bool
deriving DecidableEq, Repr

/-- The packets that are written to a KMP track: media info, and frames with the fields of `kmp_frame_t` and the data. -/
inductive Out where
  | info (i : Info)
  | frame (key : Bool) (dts ptsDelay : Int) (data : List UInt8)
deriving DecidableEq, Repr

/-- `ngx_ts_kmp_heavc_t`, ngx_ts_kmp_track.c:76-93, without `nalus`: the functions, and the masks as predicates on types.
`media` makes the width, the height and the extra data of the saved NAL units. -/
structure Codec where
  psId : List UInt8 → Option Nat
  media : List (List UInt8) → Option (Nat × Nat × List UInt8)
  cea : List UInt8 → Bool
  typeOf : Nat → Nat
  save : List Nat
  skip : List Nat
  idr : List Nat
  sei : List Nat

/-- The fields of `ngx_ts_kmp_track_t` for times, ngx_ts_kmp_track.h:17-27. -/
structure Clock where
  synced : Bool := false
  timestamp : Int := 0
  last : Int := 0
deriving DecidableEq, Repr

/-- The time of a frame, `ngx_ts_kmp_track_init_frame`, ngx_ts_kmp_track.c:337-348. -/
def Clock.step (k : Clock) (dts : Int) : Clock :=
  if k.synced then { k with timestamp := k.timestamp + (dts - k.last) % 8589934592, last := dts }
  else { synced := true, timestamp := dts, last := dts }

/-- `ngx_ts_kmp_track_t` (ngx_ts_kmp_track.h:13-28) and the saved NAL units (ngx_ts_kmp_track.c:62-73): the ids and the bytes, and the types of
those that were added. -/
structure Track where
  saved : List (Nat × List UInt8) := []
  types : List Nat := []
  sent : Bool := false
  tries : Nat := 10
  cea : Bool := false
  clock : Clock := {}
  out : List Out := []
deriving DecidableEq, Repr

/-- `NGX_TS_KMP_MAX_FRAME_NALS`, ngx_ts_kmp_track.c:19. -/
def maxNals : Nat := 16

/-- `NGX_TS_KMP_TRACK_MAX_NALUS`, ngx_ts_kmp_track.c:26. -/
def maxSaved : Nat := 8

/-! ## Chains -/

/-- The bytes that `ngx_ts_kmp_copy_chain` copies, ngx_ts_kmp_track.c:178-203; also what `ngx_ts_kmp_compare_chain` (144-175) and
`ngx_ts_kmp_track_write_chain` (232-273) read. The next buffer of the last one is NULL. -/
def takeN : Chain → Nat → Res (List UInt8)
  | [], _ => .ub
  | b :: bs, n => if n ≤ b.length then .ok (b.take n) else (takeN bs (n - b.length)).map (b ++ ·)

/-! ## NAL units that are kept -/

/-- Replaces the bytes of the first NAL unit with an id. Not in the code: the write through `sn`. -/
def replace (id : Nat) (n : List UInt8) : List (Nat × List UInt8) → List (Nat × List UInt8)
  | [] => []
  | x :: xs => if x.1 = id then (id, n) :: xs else x :: replace id n xs

/-- `ngx_ts_kmp_track_heavc_get_ps_id` and `ngx_ts_kmp_track_heavc_save_nalu`, ngx_ts_kmp_track.c:372-468. -/
def saveNalu (c : Codec) (t : Track) (u : Nalu) : Res Track :=
  takeN u.pos (min u.size 128) >>= fun b =>
  match c.psId b with
  | none => .err
  | some id =>
    match t.saved.find? (fun x => x.1 = id) with
    | some x =>
      takeN u.pos u.size >>= fun n =>
      if n = x.2 then .ok t else .ok { t with saved := replace id n t.saved, sent := false }
    | none =>
      if t.saved.length ≥ maxSaved then .err
      else takeN u.pos u.size >>= fun n => .ok { t with saved := t.saved ++ [(id, n)], types := u.type :: t.types, sent := false }

/-- The captions, ngx_ts_kmp_track.c:480-493. -/
def detectCea (c : Codec) (t : Track) (u : Nalu) : Res Track :=
  if u.type ∈ c.sei ∧ t.tries > 0 then
    takeN u.pos u.size >>= fun n => if c.cea n then .ok { t with cea := true, tries := 0 } else .ok { t with tries := t.tries - 1 }
  else .ok t

/-- `ngx_ts_kmp_track_heavc_handle_nalu`, ngx_ts_kmp_track.c:471-502. -/
def handleNalu (c : Codec) (t : Track) (u : Nalu) : Res Track :=
  detectCea c t u >>= fun t => if u.type ∈ c.save then saveNalu c t u else .ok t

/-! ## The NAL units of a frame -/

/-- The variables of `ngx_ts_kmp_track_heavc_init_nalu_array`: `zero_count`; `start`, with the position and the type of the NAL unit that was
started; and the NAL units before it. -/
structure Scan where
  tr : Track
  zeros : Nat := 0
  cur : Option (Nat × Chain × Nat) := none
  done : List Nalu := []

/-- A NAL unit ends, ngx_ts_kmp_track.c:541-551 and 584-591. `last` is the offset after its last byte, which is undefined when it is before
the start. -/
def close (c : Codec) (s : Scan) (last : Nat) : Res Scan :=
  match s.cur with
  | none => .ok s
  | some (start, pos, type) =>
    if last < start then .ub
    else
      let u : Nalu := { pos := pos, size := last - start, type := type }
      handleNalu c s.tr u >>= fun t => .ok { s with tr := t, cur := none, done := s.done ++ [u] }

/-- A NAL unit starts after the start code, ngx_ts_kmp_track.c:553-578; `bs` is the rest of the buffer, `off` the offset of the first byte. -/
def startNalu (c : Codec) (bs : List UInt8) (next : Chain) (off : Nat) (s : Scan) : Res Scan :=
  if bs = [] ∧ next = [] then .ok s
  else if s.done.length ≥ maxNals then .err
  else
    let pos := if bs ≠ [] then bs :: next else next
    match pos with
    | (x :: _) :: _ => .ok { s with zeros := 0, cur := some (off, pos, c.typeOf x.toNat) }
    | _ => .ub

/-- The loop over the bytes of a buffer, ngx_ts_kmp_track.c:529-579, from offset `off`. -/
def scanBuf (c : Codec) (next : Chain) : List UInt8 → Nat → Scan → Res Scan
  | [], _, s => .ok s
  | b :: bs, off, s =>
    if b = 0 then scanBuf c next bs (off + 1) { s with zeros := s.zeros + 1 }
    else if s.zeros < 2 ∨ b ≠ 1 then scanBuf c next bs (off + 1) { s with zeros := 0 }
    else (if off < s.zeros then .ub else close c s (off - s.zeros)) >>= fun s => startNalu c bs next (off + 1) s >>= fun s =>
      scanBuf c next bs (off + 1) s

/-- The loop over the buffers, ngx_ts_kmp_track.c:525-582, and the end. -/
def scan (c : Codec) : Chain → Nat → Scan → Res Scan
  | [], off, s => close c s off
  | b :: bs, off, s => scanBuf c bs b off s >>= fun s => scan c bs (off + b.length) s

/-- `ngx_ts_kmp_track_heavc_init_nalu_array`, ngx_ts_kmp_track.c:505-595. -/
def nalus (c : Codec) (t : Track) (chain : Chain) : Res (Track × List Nalu) :=
  scan c chain 0 { tr := t } >>= fun s => .ok (s.tr, s.done)

/-! ## Frames -/

/-- A 32 bit number in network order, `ngx_ts_kmp_write_be32`, ngx_ts_kmp_track.c:32-37. -/
def be32 (n : Nat) : List UInt8 := [UInt8.ofNat (n / 16777216), UInt8.ofNat (n / 65536), UInt8.ofNat (n / 256), UInt8.ofNat n]

/-- The conversion to `int32_t`. -/
def int32 (x : Int) : Int := (x + 2147483648) % 4294967296 - 2147483648

/-- The data of a frame, `ngx_ts_kmp_track_heavc_write_frame`, ngx_ts_kmp_track.c:598-652. -/
def frameData (c : Codec) : List Nalu → Res (List UInt8)
  | [] => .ok []
  | u :: us =>
    if u.type ∈ c.skip then frameData c us
    else takeN u.pos u.size >>= fun n => frameData c us >>= fun r => .ok (be32 u.size ++ n ++ r)

/-- The media info is written if it was not, ngx_ts_kmp_track.c:673-694 with `ngx_ts_kmp_track_handle_media_info` (276-309); none when the
frame is skipped. -/
def mediaInfo (c : Codec) (t : Track) : Res (Option Track) :=
  if t.sent then .ok (some t)
  else if ¬ c.save.all (fun x => x ∈ t.types) then .ok none
  else
    match c.media (t.saved.map Prod.snd) with
    | none => .err
    | some (w, h, x) => .ok (some { t with sent := true, out := t.out ++ [.info { width := w, height := h, extra := x, cea := t.cea }] })

/-- `ngx_ts_kmp_track_heavc_pes_handler`, ngx_ts_kmp_track.c:655-708. -/
def videoPes (c : Codec) (t : Track) (chain : Chain) (pts dts : Int) : Res Track :=
  nalus c t chain >>= fun (t, us) =>
  mediaInfo c t >>= fun o =>
  match o with
  | none => .ok t
  | some t =>
    let k := t.clock.step dts
    frameData c us >>= fun d =>
    .ok { t with clock := k, out := t.out ++ [.frame (us.any fun u => u.type ∈ c.idr) k.timestamp (int32 (pts - dts)) d] }

/-! ## AVC -/

/-- The avcC box, `ngx_ts_kmp_track_avc_update_media_info`, ngx_ts_kmp_track.c:713-815. `decode` is `ngx_ts_avc_decode_params`: the width, the
height, and the profile, the constraints and the level. -/
def avcMedia (decode : List UInt8 → Option (Nat × Nat × UInt8 × UInt8 × UInt8)) (saved : List (List UInt8)) : Option (Nat × Nat × List UInt8) :=
  let pick (k : Nat) : Option (List UInt8) := (saved.filter fun n => (n.headD 0).toNat % 32 = k).getLast?
  match pick 7, pick 8 with
  | some sps, some pps =>
    match decode sps with
    | none => none
    | some (w, h, p, x, l) =>
      some (w, h, [1, p, x, l, 0xff, 0xe1, UInt8.ofNat (sps.length / 256), UInt8.ofNat sps.length] ++ sps ++
        [1, UInt8.ofNat (pps.length / 256), UInt8.ofNat pps.length] ++ pps)
  | _, _ => none

/-- `ngx_ts_kmp_track_avc_init`, ngx_ts_kmp_track.c:818-848. -/
def avc (psId : List UInt8 → Option Nat) (cea : List UInt8 → Bool)
    (decode : List UInt8 → Option (Nat × Nat × UInt8 × UInt8 × UInt8)) : Codec :=
  { psId := psId, media := avcMedia decode, cea := cea, typeOf := fun b => b % 32, save := [7, 8], skip := [7, 8, 9], idr := [5], sei := [6] }

/-- `ngx_ts_kmp_track_hevc_init`, ngx_ts_kmp_track.c:911-951. -/
def hevc (psId : List UInt8 → Option Nat) (cea : List UInt8 → Bool) (media : List (List UInt8) → Option (Nat × Nat × List UInt8)) : Codec :=
  { psId := psId, media := media, cea := cea, typeOf := fun b => b / 2 % 64, save := [32, 33, 34], skip := [32, 33, 34, 35],
    idr := [19, 20], sei := [39, 40] }

end Verif.TsKmp
