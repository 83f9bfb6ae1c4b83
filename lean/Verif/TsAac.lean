import Verif.TsNal

/-!
# MPEG-TS to KMP: AAC

The PES handler for AAC of nginx-mpegts-kmp-module/src/ngx_ts_kmp_track.c: `ngx_ts_kmp_track_aac_pes_handler` and the functions it calls,
with `ngx_ts_aac_decode_params` of nginx-mpegts-module/src/ngx_ts_aac.c. Writes to the KMP track succeed. Not modelled: publishing, `created`,
logs.
-/

namespace Verif.TsKmp

/-- `ngx_ts_aac_params_t`, ngx_ts_aac.h:18-24; `freq` is a function of `freq_index`. -/
structure AacParams where
  version : Nat
  profile : Nat
  freqIndex : Nat
  chan : Nat
deriving DecidableEq, Repr

/-- What is sent about an audio track. -/
structure AInfo where
  rate : Nat
  channels : Nat
  mono : Bool
  extra : List UInt8
deriving DecidableEq, Repr

/-- The packets that are written to the KMP track of audio. -/
inductive AOut where
  | info (i : AInfo)
  | frame (dts : Int) (data : List UInt8)
deriving DecidableEq, Repr

/-- `ngx_ts_kmp_track_t` for audio: `last_aac_params` (zeros are none), `media_info_sent`, the rate and the info of `track->media_info`, the
times, and what was written. -/
structure ATrack where
  last : Option AacParams := none
  sent : Bool := false
  info : AInfo := { rate := 0, channels := 0, mono := false, extra := [] }
  clock : Clock := {}
  out : List AOut := []
deriving DecidableEq, Repr

/-- The sampling frequencies, ngx_ts_aac.c:21-24. -/
def aacFreq (i : Nat) : Nat :=
  [96000, 88200, 64000, 48000, 44100, 32000, 24000, 22050, 16000, 12000, 11025, 8000, 7350, 0, 0, 0].getD i 0

/-- Byte `i` of a header, which has seven bytes or more. -/
def byte (h : List UInt8) (i : Nat) : Nat := (h.getD i 0).toNat

/-- `ngx_ts_aac_decode_params`, ngx_ts_aac.c:12-64. -/
def aacDecode (h : List UInt8) : Option AacParams :=
  let p : AacParams :=
    { version := byte h 1 / 8 % 2, profile := byte h 2 / 64 + 1, freqIndex := byte h 2 / 4 % 16, chan := byte h 2 % 2 * 4 + byte h 3 / 64 }
  if aacFreq p.freqIndex = 0 then none else some p

/-- The media info of the parameters, ngx_ts_kmp_track.c:983-1003. -/
def aacInfo (p : AacParams) : AInfo :=
  { rate := aacFreq p.freqIndex, channels := p.chan, mono := p.chan = 1,
    extra := [UInt8.ofNat (p.profile * 8 ||| p.freqIndex / 2), UInt8.ofNat (p.freqIndex * 128 ||| p.chan * 8)] }

/-- `ngx_ts_kmp_track_aac_update_media_info`, ngx_ts_kmp_track.c:955-1008. -/
def aacUpdate (t : ATrack) (h : List UInt8) : Option ATrack :=
  match aacDecode h with
  | none => none
  | some p => if t.last = some p then some t else some { t with last := some p, info := aacInfo p, sent := false }

/-- `ngx_ts_kmp_track_handle_media_info`, ngx_ts_kmp_track.c:279-309. -/
def ATrack.sendInfo (t : ATrack) : ATrack := if t.sent then t else { t with sent := true, out := t.out ++ [.info t.info] }

/-- The loop for the header with `header_len` 9, ngx_ts_kmp_track.c:1042-1088: none when there is no byte left; the header, its length and the
position after it. `dst` are the bytes in `header_buf`. -/
def adts9 : Chain → List UInt8 → Nat → Res (Option (List UInt8 × Nat × Chain))
  | [], _, _ => .ub
  | b :: bs, dst, left =>
    if b.length < left then
      if bs = [] then (if dst ++ b = [] then .ok none else .err) else adts9 bs (dst ++ b) (left - b.length)
    else .ok (some (dst ++ b.take left, 9, b.drop left :: bs))

/-- The loop for the header with `header_len` 7, ngx_ts_kmp_track.c:1042-1088. -/
def adts7 : Chain → List UInt8 → Nat → Res (Option (List UInt8 × Nat × Chain))
  | [], _, _ => .ub
  | b :: bs, dst, left =>
    if b.length < left then
      if bs = [] then (if dst ++ b = [] then .ok none else .err) else adts7 bs (dst ++ b) (left - b.length)
    else if dst = [] then
      match b[1]? with
      | none => .ub
      | some x => if x.toNat % 2 = 0 then adts9 (b :: bs) [] 9 else .ok (some (b.take left, 7, b.drop left :: bs))
    else if byte (dst ++ b.take left) 1 % 2 = 0 then adts9 (b.drop left :: bs) (dst ++ b.take left) 2
    else .ok (some (dst ++ b.take left, 7, b.drop left :: bs))

/-- The loop for the data, ngx_ts_kmp_track.c:1123-1161: what is written, and the position after it. -/
def aacData : Chain → Nat → Res (List UInt8 × Chain)
  | [], _ => .ub
  | b :: bs, left =>
    if b.length < left then
      if bs = [] then .err else (aacData bs (left - b.length)).map fun r => (b ++ r.1, r.2)
    else .ok (b.take left, b.drop left :: bs)

/-- `ngx_ts_aac_adts_frame_len`, ngx_ts_kmp_track.c:29-30. -/
def adtsLen (h : List UInt8) : Nat := byte h 3 % 4 * 2048 + byte h 4 * 8 + byte h 5 / 32

/-- The loop over the frames, ngx_ts_kmp_track.c:1036-1179. Every frame takes 7 bytes or more, so that `fuel` above their number does not end
the loop. -/
def aacLoop (pts : Nat) : Nat → Nat → ATrack → Chain → Res ATrack
  | 0, _, _, _ => .ub
  | fuel + 1, index, t, c =>
    adts7 c [] 7 >>= fun r =>
    match r with
    | none => .ok t
    | some (h, hlen, c) =>
      match aacUpdate t h with
      | none => .err
      | some t =>
        let t := t.sendInfo
        if adtsLen h < hlen then .err
        else
          aacData c (adtsLen h - hlen) >>= fun (d, c) =>
          let k := t.clock.step (pts + 92160000 * index / t.info.rate : Nat)
          aacLoop pts fuel (index + 1) { t with clock := k, out := t.out ++ [.frame k.timestamp d] } c

/-- `ngx_ts_kmp_track_aac_pes_handler`, ngx_ts_kmp_track.c:1011-1180. -/
def aacPes (t : ATrack) (c : Chain) (pts : Nat) : Res ATrack := aacLoop pts (c.flatten.length + 1) 0 t c

end Verif.TsKmp
