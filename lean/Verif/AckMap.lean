import Verif.Basic

/-!
# Mapping of acks in the transcoder

The transcoder receives input frames with ids, and sends output frames with ids of their own. When the
receiver of the output acks an output frame, the transcoder acks an input frame to its own sender.
This file models the map from one to the other: transcoder/ackHandler/audioAckMap.cpp,
videoAckMap.cpp and the wrappers of ackHandlerInternal.cpp, and the part of
transcoder/transcode/transcode_session.c that skips the acked part of the first frames when a
session starts again.

`Res.err` is a C++ exception of type std::exception. `Res.ub` is undefined behaviour or a failed assert.
Ids are `uint64_t` (`Nat` reduced by `u64`), run values are `int32_t` (`Int`, checked by `chk32` where
the C++ code computes in signed 32 bit).
Not modelled: log lines (except where a log line reads an empty deque), `m_total`, and
allocation failure.
-/

namespace Verif.Ack

/-- Conversion to `uint64_t`. /repo/transcoder/ackHandler/ackHandlerInternal.h:10 (`frameId_t`). -/
def u64 (x : Int) : Nat := (x % 2 ^ 64).toNat

/-- Conversion to `uint32_t`. /repo/transcoder/ackHandler/ackHandler.h:8-9. -/
def u32 (x : Int) : Nat := (x % 2 ^ 32).toNat

/-- Conversion to `int32_t`. /repo/transcoder/ackHandler/audioAckMap.cpp:35, 72. -/
def i32 (x : Int) : Int := Int.bmod x (2 ^ 32)

/-- Conversion to `int64_t` (`streamOffset_t`). /repo/transcoder/ackHandler/audioAckMap.cpp:4. -/
def i64 (x : Int) : Int := Int.bmod x (2 ^ 64)

/-- A value computed in `int32_t`: overflow is undefined.
/repo/transcoder/ackHandler/audioAckMap.cpp:54, 77, 84, 89. -/
def chk32 (x : Int) : Res Int := if -(2 ^ 31) ≤ x ∧ x < 2 ^ 31 then .ok x else .ub

/-- `try { x } catch(const std::exception &e) { d }`, with the code after `x` that throws nothing.
/repo/transcoder/ackHandler/ackHandlerInternal.cpp:7-12, 32-38, 47-54. -/
def caught {α β : Type} (x : Res α) (d : Res β) (f : α → Res β) : Res β :=
  match x with
  | .ok a => f a
  | .err => d
  | .ub => .ub

/-- `RepeatedFrame`: `counter` frames of `val` samples. audioAckMap.cpp:8-28, 35. -/
structure Run where
  val : Int
  counter : Int
deriving Repr, DecidableEq

/-- `FrameHistory`. audioAckMap.cpp:34-43. -/
structure Hist where
  q : List Run
  base : Nat
  last : Nat
  off : Int
deriving Repr, DecidableEq

/-- `FrameHistory(name, id)`. audioAckMap.cpp:68-69. -/
def Hist.init (id : Nat) : Hist := ⟨[], id, id, 0⟩

/-- `m_q.back()` with the runs before it; `none` when the deque is empty. -/
def unsnoc (q : List Run) : Option (List Run × Run) :=
  match q.getLast? with
  | none => none
  | some r => some (q.dropLast, r)

/-- `handleFrameDiscontinuity`. audioAckMap.cpp:45-65. -/
def discont (q : List Run) (c dur : Int) : Res (List Run) :=
  if c < 0 then
    if c = -1 then
      match unsnoc q with
      | none => .ub
      | some (init, r) => do
        let v ← chk32 (r.val + dur)
        if 1 < r.counter then .ok (init ++ [⟨r.val, r.counter - 1⟩, ⟨v, 1⟩])
        else .ok (init ++ [⟨v, 1⟩])
    else .err
  else if 1 < c then .ok (q ++ [⟨0, c - 1⟩])
  else .ok q

/-- Lines 75-77 of `addFrame`: a run for the duration, one frame more in it. audioAckMap.cpp:75-77. -/
def bump (q : List Run) (dur : Int) : Res (List Run) :=
  match unsnoc q with
  | none => .ok [⟨dur, 1⟩]
  | some (init, r) =>
    if r.val ≠ dur then .ok (q ++ [⟨dur, 1⟩])
    else do
      let n ← chk32 (r.counter + 1)
      .ok (init ++ [⟨r.val, n⟩])

/-- `addFrame`. audioAckMap.cpp:71-79. -/
def Hist.addFrame (h : Hist) (fd : Nat) (dur : Int) : Res Hist := do
  let c := i32 (u64 (fd - h.last))
  let q ← discont h.q c dur
  let q ← bump q dur
  .ok ⟨q, h.base, u64 (h.last + c), h.off⟩

/-- The loop of `frameByOffset`. audioAckMap.cpp:83-92. -/
def frameGo : List Run → Int → Nat → Res (Nat × Nat)
  | [], _, _ => .err
  | r :: q, off, w => do
    let p ← chk32 (r.counter * r.val)
    if off ≤ p then
      if r.val = 0 then .ub
      else
        let c := u64 (off.tdiv r.val)
        .ok (u64 (w + c), u64 (off - c * r.val))
    else frameGo q (off - p) (u64 (w + r.counter))

/-- `frameByOffset`. audioAckMap.cpp:80-93. -/
def Hist.frameByOffset (h : Hist) (off : Int) : Res (Nat × Nat) :=
  frameGo h.q (i64 (off - h.off)) h.base

/-- The loop of `offsetByFrame`. audioAckMap.cpp:102-111. -/
def offsetGo : List Run → Nat → Int → Int → Res (Int × Int)
  | [], _, lo, hi => .ok (lo, hi)
  | r :: q, fd, lo, hi =>
    if fd ≤ u64 r.counter then
      let lo := i64 (lo + fd * r.val)
      .ok (lo, i64 (lo + r.val))
    else do
      let p ← chk32 (r.val * r.counter)
      offsetGo q (u64 (fd - r.counter)) (i64 (lo + p)) hi

/-- `offsetByFrame`. audioAckMap.cpp:94-112. -/
def Hist.offsetByFrame (h : Hist) (fd : Nat) : Res (Int × Int) :=
  if fd < h.base ∨ h.last < fd then .err
  else offsetGo h.q (fd - h.base) h.off h.off

/-- The loop of `removeFrames`. audioAckMap.cpp:116-128. -/
def removeGo : List Run → Nat → Int → Nat → Res (List Run × Nat × Int)
  | [], base, off, _ => .ok ([], base, off)
  | r :: q, base, off, fd =>
    if fd ≤ u64 (u64 (base + r.counter) - 1) then
      let c := u64 (u64 (fd - base) + 1)
      .ok (⟨r.val, i32 (r.counter - c)⟩ :: q, u64 (fd + 1), i64 (off + c * r.val))
    else do
      let p ← chk32 (r.counter * r.val)
      removeGo q (u64 (base + r.counter)) (i64 (off + p)) fd

/-- `removeFrames`. audioAckMap.cpp:113-130. The assert of line 129 is a failure. -/
def Hist.removeFrames (h : Hist) (fd : Nat) : Res Hist :=
  if fd < h.base ∨ h.last ≤ fd then .ok h
  else do
    let (q, base, off) ← removeGo h.q h.base h.off fd
    if base ≤ h.last then .ok ⟨q, base, h.last, off⟩ else .ub

/-- `adjustLastFrameDuration`. audioAckMap.cpp:152-170. -/
def Hist.adjust (h : Hist) (by' : Int) : Res Hist :=
  if by' = 0 then .ok h
  else match unsnoc h.q with
    | none => .ub
    | some (init, r) =>
      if r.counter = 1 then do
        let v ← chk32 (r.val + by')
        match unsnoc init with
        | none => .ok { h with q := [⟨v, 1⟩] }
        | some (init', prev) =>
          if prev.val = v then do
            let n ← chk32 (prev.counter + 1)
            .ok { h with q := init' ++ [⟨prev.val, n⟩] }
          else .ok { h with q := init ++ [⟨v, 1⟩] }
      else do
        let n ← chk32 (r.counter - 1)
        .ok { h with q := init ++ [⟨r.val, n⟩, ⟨by', 1⟩] }

/-- `INVALID_FRAME_ID`, `AV_NOPTS_VALUE` as `uint64_t`. ackHandler.h:38, audioAckMap.cpp:214. -/
def invalidId : Nat := 2 ^ 63

/-- `AudioAckMap`. audioAckMap.cpp:180-195. A filtered frame is its id and its samples (`uint32_t`). -/
structure AudioMap where
  inp : Hist
  filtered : List (Nat × Nat)
  out : Hist
deriving Repr, DecidableEq

/-- `AudioAckMap(idIn, idOut, name)`. audioAckMap.cpp:188-195. -/
def AudioMap.init (idIn idOut : Nat) : AudioMap := ⟨.init idIn, [], .init idOut⟩

/-- `ack_map_add_input` over `addIn`. audioAckMap.cpp:206-210, ackHandlerInternal.cpp:3-14:
an exception leaves the map as it was. -/
def AudioMap.addIn (m : AudioMap) (id samples : Nat) : Res AudioMap :=
  caught (m.inp.addFrame id (i32 samples)) (.ok m) fun h => .ok { m with inp := h }

/-- `ack_map_add_filtered` over `addFiltered`. audioAckMap.cpp:211-222. -/
def AudioMap.addFiltered (m : AudioMap) (id samples : Nat) : AudioMap :=
  let id := if id = invalidId then m.inp.last else id
  match m.filtered.getLast? with
  | none => { m with filtered := [(id, samples)] }
  | some (i, n) =>
    if i ≠ id then { m with filtered := m.filtered ++ [(id, samples)] }
    else { m with filtered := m.filtered.dropLast ++ [(i, u32 (n + samples))] }

/-- Lines 241-250 of `addOut`: the last output frame is made longer or shorter when its end is not within
the input frame. audioAckMap.cpp:241-250. -/
def align (inp out : Hist) (id : Nat) : Res Hist := do
  let (lo, hi) ← inp.offsetByFrame id
  let (o, _) ← out.offsetByFrame out.last
  if o < lo then out.adjust (i32 (lo - o))
  else if hi < o then out.adjust (i32 (hi - o))
  else .ok out

/-- `ack_map_add_output` over `addOut`. audioAckMap.cpp:224-257, ackHandlerInternal.cpp:29-40.
The loop of line 233 ends after one turn: either the filtered frame is used up (line 252, break), or the
samples of the output frame are. An exception of line 241 or 242 leaves the
output frame added and the filtered frame shortened. -/
def AudioMap.addOut (m : AudioMap) (samples : Nat) : Res AudioMap :=
  caught (m.out.addFrame (u64 (m.out.last + 1)) (i32 samples)) (.ok m) fun out =>
    match m.filtered with
    | [] => .ok { m with out := out }
    | (id, n) :: fs =>
      if samples = 0 then .ok { m with out := out }
      else
        let left := n - min samples n
        caught (align m.inp out id) (.ok ⟨m.inp, (id, left) :: fs, out⟩) fun out =>
          .ok ⟨m.inp, if left = 0 then fs else (id, left) :: fs, out⟩

/-- A position in the input: the frame to send next, and what to skip at its start.
`ack_desc_t`, ackHandler.h:5-13. -/
structure Pos where
  id : Nat
  off : Nat
deriving Repr, DecidableEq

/-- `map` of the audio map. audioAckMap.cpp:259-276. -/
def AudioMap.map (m : AudioMap) (id : Nat) : Res (AudioMap × Pos) := do
  let (o, _) ← m.out.offsetByFrame id
  let (i, r) ← m.inp.frameByOffset o
  match m.out.removeFrames (u64 (id - 1)), m.inp.removeFrames (u64 (i - 1)) with
  | .ok out, .ok inp => .ok (⟨inp, m.filtered, out⟩, ⟨i, u32 r⟩)
  | _, _ => .ub

/-- `ack_map_ack` over `map`: an ack that cannot be mapped is passed on as it is.
ackHandlerInternal.cpp:42-57. -/
def AudioMap.ack (m : AudioMap) (id : Nat) : Res (AudioMap × Pos) :=
  caught (m.map id) (.ok (m, ⟨id, 0⟩)) .ok

/-- What the transcoder tells the map: a frame left the decoder, a frame left the filter, a frame left the
encoder, an ack came in. transcode_session.c:395, 544, 632, transcode_session_output.c:141-149. -/
inductive Ev where
  | inp (id samples : Nat)
  | filt (id samples : Nat)
  | out (samples : Nat)
  | ack (id : Nat)
deriving Repr, DecidableEq

/-- One event; an ack gives a position. ackHandlerUtils.h:55-72. -/
def AudioMap.step (m : AudioMap) : Ev → Res (AudioMap × List Pos)
  | .inp id n => (m.addIn id n).map (·, [])
  | .filt id n => .ok (m.addFiltered id n, [])
  | .out n => (m.addOut n).map (·, [])
  | .ack id => (m.ack id).map fun x => (x.1, [x.2])

/-- A run of the map over events, with the positions acked. transcode_session.c:395, 544, 632. -/
def AudioMap.run (m : AudioMap) : List Ev → Res (AudioMap × List Pos)
  | [] => .ok (m, [])
  | e :: es => do
    let (m, ps) ← m.step e
    let (m, qs) ← m.run es
    .ok (m, ps ++ qs)

/-! ## Video -/

/-- An input frame of the video map: its pts and the position it stands for. videoAckMap.cpp:10-15. -/
structure VIn where
  pts : Nat
  pos : Pos
deriving Repr, DecidableEq

/-- `VideoAckMap`. videoAckMap.cpp:17-24. -/
structure VideoMap where
  input : List VIn
  output : List (Nat × Pos)
  lastKey : Nat
deriving Repr, DecidableEq

/-- `VideoAckMap(initialFrameId, name)`. videoAckMap.cpp:22-24. -/
def VideoMap.init (id : Nat) : VideoMap := ⟨[], [], id⟩

/-- `addIn`. videoAckMap.cpp:25-35. -/
def VideoMap.addIn (m : VideoMap) (id pts : Nat) (key : Bool) : VideoMap :=
  if key then { m with lastKey := id, input := m.input ++ [⟨pts, ⟨id, 0⟩⟩] }
  else { m with input := m.input ++ [⟨pts, ⟨m.lastKey, u32 (m.lastKey - id)⟩⟩] }

/-- The search of `addOut`, with the frames from the match on: `std::abs` of the least value is undefined.
videoAckMap.cpp:39-44. -/
def findPts : List VIn → Nat → Res (VIn × List VIn)
  | [], _ => .err
  | f :: fs, pts =>
    let d := i64 (f.pts - pts)
    if d = -(2 ^ 63) then .ub
    else if d.natAbs < 450 then .ok (f, f :: fs)
    else findPts fs pts

/-- `ack_map_add_output` over `addOut`. videoAckMap.cpp:36-48. -/
def VideoMap.addOut (m : VideoMap) (id pts : Nat) (key : Bool) : Res VideoMap :=
  if key then
    caught (findPts m.input pts) (.ok m) fun x =>
      .ok { m with input := x.2, output := m.output ++ [(id, x.1.pos)] }
  else .ok m

/-- The search of `map`, with the mappings from the match on. videoAckMap.cpp:51-53, 65. -/
def findOut : List (Nat × Pos) → Nat → Option (Pos × List (Nat × Pos))
  | [], _ => none
  | m :: ms, ack => if m.1 = ack then some (m.2, m :: ms) else findOut ms ack

/-- `ack_map_ack` over `map`: an ack that is not found is passed on as it is; the log line of the failure
reads the first and last mapping, undefined when there is none. videoAckMap.cpp:50-68,
ackHandlerInternal.cpp:42-57. -/
def VideoMap.ack (m : VideoMap) (id : Nat) : Res (VideoMap × Pos) :=
  match findOut m.output id with
  | some (p, rest) => .ok ({ m with output := rest }, p)
  | none => if m.output = [] then .ub else .ok (m, ⟨id, 0⟩)

/-- What the transcoder tells the video map: a frame left the filter, a packet left the encoder, an ack
came in. transcode_session.c:395, 544, videoAckMap.cpp:80-82. -/
inductive VEv where
  | inp (id pts : Nat) (key : Bool)
  | out (id pts : Nat) (key : Bool)
  | ack (id : Nat)
deriving Repr, DecidableEq

/-- One event of the video map. ackHandlerUtils.h:55-72. -/
def VideoMap.step (m : VideoMap) : VEv → Res (VideoMap × List Pos)
  | .inp id pts key => .ok (m.addIn id pts key, [])
  | .out id pts key => (m.addOut id pts key).map (·, [])
  | .ack id => (m.ack id).map fun x => (x.1, [x.2])

/-- A run of the video map over events. transcode_session.c:395, 544. -/
def VideoMap.run (m : VideoMap) : List VEv → Res (VideoMap × List Pos)
  | [] => .ok (m, [])
  | e :: es => do
    let (m, ps) ← m.step e
    let (m, qs) ← m.run es
    .ok (m, ps ++ qs)

/-! ## Start of a session at a position -/

/-- What `OnDecodedFrame` passes on of the decoded audio frames, each with its id, when the session was
started with an offset: frames within the offset are dropped, the frame the offset falls into loses its
first samples. transcode_session.c:566-570, 600-615. -/
def deliver {α : Type} (off : Nat) : List (Nat × List α) → List (Nat × List α)
  | [] => []
  | f :: fs =>
    if 0 < off then
      if off < f.2.length then (f.1, f.2.drop off) :: fs
      else deliver (off - f.2.length) fs
    else f :: fs

/-- What `OnDecodedFrame` passes on of the decoded video frames. transcode_session.c:616-620. -/
def deliverVideo {α : Type} (off : Nat) : List α → List α
  | [] => []
  | f :: fs => if 0 < off then deliverVideo (off - 1) fs else f :: fs

end Verif.Ack
