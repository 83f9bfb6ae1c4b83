import Verif.Basic

/-!
# The syncer of live channels

nginx-live-module/src/ngx_live_syncer.c: times of frames are shifted so that they follow the clock.

Simplified: `sequence` does not wrap; counters and logs that are only shown are left out, and so is saving to disk. Settings times the timescale do not
overflow, and `jump_sync_frames` is below 2^32. Other signed overflow is undefined behaviour.
-/

namespace Verif.Syncer

/-- `int64_t`. -/
def chk (x : Int) : Res Int := if -2 ^ 63 ≤ x ∧ x < 2 ^ 63 then .ok x else .ub

/-- The cast to `int64_t`. -/
def s64 (x : Int) : Int := (x + 2 ^ 63) % 2 ^ 64 - 2 ^ 63

/-- `NGX_LIVE_INVALID_TIMESTAMP`, ngx_live_channel.h:28, ngx_ksmp.h:71. -/
def inv : Int := 2 ^ 63 - 1

/-- `ngx_live_syncer_preset_conf_t`, ngx_live_syncer.c:19-29, and the timescale of the channel. -/
structure Conf where
  timescale : Nat
  jumpLog : Nat
  jump : Nat
  syncFrames : Nat
  back : Nat
  fwd : Nat
  reuse : Nat
deriving DecidableEq, Repr

/-- `ngx_live_syncer_wraparound_value`, ngx_live_syncer.c:15-16. -/
def Conf.wrap (c : Conf) : Nat := 2 ^ 32 * (c.timescale / 1000)

/-- `ngx_live_syncer_log_t`, ngx_live_syncer.c:32-36. -/
structure Log where
  id : Nat := 0
  corr : Int := 0
  seq : Nat := 0
deriving DecidableEq, Repr

/-- `ngx_live_syncer_track_ctx_t`, ngx_live_syncer.c:39-48. -/
structure Trk where
  video : Bool
  lastPts : Int := inv
  lastOut : Int := inv
  corr : Int := 0
  force : Nat := 0
  log : List Log := [{}, {}, {}]
  idx : Nat := 0
deriving DecidableEq, Repr

/-- `ngx_live_syncer_channel_ctx_t`, ngx_live_syncer.c:51-55. -/
structure Chan where
  corr : Int := 0
  seq : Nat := 0
  tracks : List Trk := []
deriving DecidableEq, Repr

/-- `kmp_frame_t` with the id of the frame (`ngx_kmp_in_evt_frame_t`). -/
structure Frame where
  id : Nat
  created : Int
  dts : Int
  flags : Nat
  delay : Int
deriving DecidableEq, Repr

/-- `ngx_live_syncer_track_reset`, ngx_live_syncer.c:172-189. -/
def resetTrack (t : Trk) : Trk := { t with lastPts := inv, lastOut := inv, force := 0 }

/-- `ngx_live_syncer_log_add`, ngx_live_syncer.c:192-212. -/
def addLog (ch : Chan) (t : Trk) (id : Nat) : Chan × Trk :=
  ({ ch with seq := ch.seq + 1 },
    { t with log := t.log.set t.idx ⟨id, t.corr, ch.seq + 1⟩, idx := if t.idx + 1 ≥ 3 then 0 else t.idx + 1 })

/-- `ngx_live_syncer_enable_sync_flag`, ngx_live_syncer.c:215-235. -/
def forceOthers (i n : Nat) (l : List Trk) : List Trk := l.mapIdx fun j t => if j = i then t else { t with force := n }

/-- `ngx_round_to_multiple`, ngx_live.h:37-40, of an `int64_t` and an `unsigned long`. -/
def roundTo (n : Int) (w : Nat) : Int := ((((n + (w / 2 : Nat)) % 2 ^ 64).toNat / w * w : Nat) : Int)

/-- `ngx_live_syncer_sync_track`, ngx_live_syncer.c:238-307. -/
def syncTrack (c : Conf) (ch : Chan) (i : Nat) (t : Trk) (pts created : Int) (id n : Nat) (min : Int) : Res (Chan × Trk) :=
  chk (created - pts) >>= fun tc0 =>
    let t := if tc0 < min then { t with force := 0 } else t
    let tc := if tc0 < min then min else tc0
    chk (tc - ch.corr) >>= fun d =>
      if c.wrap = 0 then .ub
      else
        let cc := s64 (ch.corr + roundTo d c.wrap)
        chk (cc - tc) >>= fun e => chk e.natAbs >>= fun a =>
          if a < (c.reuse * c.timescale : Nat) ∧ min ≤ cc then
            .ok (addLog ch { t with corr := cc, force := 0 } id)
          else
            .ok (addLog { ch with corr := tc, tracks := if t.force = 0 ∧ n > 0 then forceOthers i n ch.tracks else ch.tracks }
              { t with corr := tc, force := 0 } id)

/-- What is done with a frame. -/
inductive Act where
  | none
  | jump (min : Int)
  | sync (n : Nat)
deriving DecidableEq, Repr

/-- ngx_live_syncer.c:339-378. `pts_diff` is of `last_pts` also if that is invalid. -/
def interAct (c : Conf) (t : Trk) (pts dts : Int) : Res Act :=
  chk (if pts < t.lastPts then t.lastPts - pts else pts - t.lastPts) >>= fun diff =>
    if diff ≤ (c.jumpLog * c.timescale : Nat) ∨ t.lastPts = inv then .ok .none
    else if diff ≤ (c.jump * c.timescale : Nat) then .ok .none
    else if t.lastOut ≠ inv then chk (t.lastOut + 1) >>= fun x => chk (x - dts) >>= fun x => .ok (.jump x)
    else .ok (.jump (-2 ^ 63))

/-- ngx_live_syncer.c:382-419. -/
def keyAct (c : Conf) (t : Trk) (pts created : Int) : Res Act :=
  if t.force = 1 then .ok (.sync 0)
  else if t.lastPts = inv then .ok (.sync 0)
  else
    chk (pts + t.corr) >>= fun p => chk (created - (c.back * c.timescale : Nat)) >>= fun lo =>
      if p < lo then .ok (.sync c.syncFrames)
      else chk (created + (c.fwd * c.timescale : Nat)) >>= fun hi => if hi < p then .ok (.sync c.syncFrames) else .ok .none

/-- The time of display, ngx_live_syncer.c:334-337. -/
def getPts (video : Bool) (f : Frame) : Res Int := if video then chk (f.dts + f.delay) else .ok f.dts

def inter (video : Bool) (f : Frame) : Bool := video && f.flags &&& 1 == 0

/-- ngx_live_syncer.c:421-426 and 376-378. -/
def perform (c : Conf) (ch : Chan) (i : Nat) (t : Trk) (pts : Int) (f : Frame) : Act → Res (Chan × Trk × Frame)
  | .none => .ok (ch, t, f)
  | .jump min => (syncTrack c ch i t pts f.created f.id c.syncFrames min).map fun x => (x.1, x.2, f)
  | .sync n => (syncTrack c ch i t pts f.created f.id n (-2 ^ 63)).map fun x => (x.1, x.2, { f with flags := f.flags ||| 16 })

/-- `ngx_live_syncer_add_frame`, ngx_live_syncer.c:310-436: the frame that is handed on. -/
def addFrame (c : Conf) (ch : Chan) (i : Nat) (t : Trk) (f : Frame) : Res (Chan × Frame) :=
  let t := if t.force > 1 then { t with force := t.force - 1 } else t
  getPts t.video f >>= fun pts =>
    (if inter t.video f then interAct c t pts f.dts else keyAct c t pts f.created) >>= fun a =>
      perform c ch i t pts f a >>= fun x =>
        chk (x.2.2.dts + x.2.1.corr) >>= fun dts =>
          .ok ({ x.1 with tracks := x.1.tracks.set i { x.2.1 with lastPts := pts, lastOut := dts } }, { x.2.2 with dts })

/-- `ngx_live_syncer_get_log`, ngx_live_syncer.c:537-565. -/
def getLog (next : Nat) : List Log → Option Log → Option Log
  | [], best => best
  | x :: l, best =>
    if x.seq = 0 then getLog next l best
    else if next ≤ x.id then getLog next l best
    else
      match best with
      | none => getLog next l (some x)
      | some b => if b.id < x.id then getLog next l (some x) else getLog next l (some b)

/-- `ngx_live_syncer_remove_future_logs`, ngx_live_syncer.c:568-584. -/
def removeLogs (next : Nat) (l : List Log) : List Log := l.map fun x => if next ≤ x.id then { x with seq := 0 } else x

/-- `ngx_live_syncer_track_reconnect`, ngx_live_syncer.c:790-830. The frame to come next and the times of the last one that was put into a segment are those of
the track. -/
def reconnect (t : Trk) (next : Nat) (pts dts : Int) : Res Trk :=
  match getLog next t.log none with
  | none => .ok (resetTrack t)
  | some x =>
    (if pts = inv then .ok inv else chk (pts - x.corr)) >>= fun last =>
      .ok { t with corr := x.corr, lastPts := last, lastOut := dts, force := 0, log := removeLogs next t.log }

/-- What happens to a channel: a new track, frames, tracks that become inactive, tracks that connect again. -/
inductive Ev where
  | add (video : Bool)
  | frame (i : Nat) (f : Frame)
  | inactive (i : Nat)
  | reconnect (i next : Nat) (pts dts : Int)
deriving DecidableEq, Repr

/-- What is seen of a track: frames that come and how they are handed on. -/
inductive Seen where
  | frame (video : Bool) (f f' : Frame)
  | reset
  | back (next : Nat)
deriving DecidableEq, Repr

def step (c : Conf) (ch : Chan) : Ev → Res (Chan × List (Nat × Seen))
  | .add video => .ok ({ ch with tracks := ch.tracks ++ [{ video }] }, [(ch.tracks.length, .reset)])
  | .frame i f =>
    match ch.tracks[i]? with
    | none => .err
    | some t => (addFrame c ch i t f).map fun x => (x.1, [(i, .frame t.video f x.2)])
  | .inactive i =>
    match ch.tracks[i]? with
    | none => .err
    | some t => .ok ({ ch with tracks := ch.tracks.set i (resetTrack t) }, [(i, .reset)])
  | .reconnect i next pts dts =>
    match ch.tracks[i]? with
    | none => .err
    | some t => (reconnect t next pts dts).map fun t => ({ ch with tracks := ch.tracks.set i t }, [(i, .back next)])

def run (c : Conf) (ch : Chan) : List Ev → Res (Chan × List (Nat × Seen))
  | [] => .ok (ch, [])
  | e :: l => step c ch e >>= fun x => (run c x.1 l).map fun y => (y.1, x.2 ++ y.2)

end Verif.Syncer
