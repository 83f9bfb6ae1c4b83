import Verif.Basic

/-!
# The segmenter: pending frames of the tracks, and the creation of segments

Model of `nginx-live-module/src/ngx_live_segmenter.c` (the segmenter that is used without low latency).

Frames that arrive are appended to a list of parts of up to 21 frames. Key frames of video tracks have a second list of
parts of up to 10 records, each with the distance, in frames, from the key frame before it. When every active track has
enough frames, a segment is cut: a target time is chosen from the key frames of all tracks, every track computes how many
frames it gives, and these frames are copied to the segment and removed from the pending lists.

Simplifications:
- times are integers without bounds, in C they are `int64_t`; `LLONG_MAX` keeps its role of "no time";
- a part is a list of frames and a list of parts is never shared: the blocks of the parts, and the pointer to the last
  part, have no addresses;
- the loops that only read walk over the concatenation of the parts, in C the last element of a part is followed by the
  first element of the next part;
- the data of a frame is the list of its bytes; the chain of buffers is the subject of `Verif/BufChain.lean`;
- timers fire at any time; media info, filler, allocation and the timelines are an environment that answers anything;
- the log of a track is not part of the C program, it records what happened.
-/

namespace Verif.Segmenter

/-! ## Records -/

/-- KMP_MEDIA_VIDEO, KMP_MEDIA_AUDIO, KMP_MEDIA_SUBTITLE (nginx-common/src/ngx_live_kmp.h). -/
inductive Media where
  | video
  | audio
  | subtitle
deriving Repr, DecidableEq

/-- ngx_live_track_state_e (ngx_live_segmenter.c:38-44). -/
inductive TState where
  | inactive
  | pending
  | ready
deriving Repr, DecidableEq

/-- LLONG_MAX, NGX_LIVE_INVALID_PTS (ngx_live_segmenter.c:24). -/
def invalid : Int := 2 ^ 63 - 1

/-- NGX_LIVE_SEGMENTER_FRAME_PART_COUNT (ngx_live_segmenter.c:18). -/
def framePart : Nat := 21

/-- NGX_LIVE_SEGMENTER_KF_PART_COUNT (ngx_live_segmenter.c:19). -/
def kfPartMax : Nat := 10

/-- NGX_LIVE_SEGMENTER_CANDIDATE_COUNT (ngx_live_segmenter.c:20). -/
def candMax : Nat := 10

/-- NGX_LIVE_SEGMENTER_MAX_FRAME_COUNT (ngx_live_segmenter.h:12). -/
def frameMax : Nat := 16384

/-- What arrives with a frame: `frame_id`, the fields of `kmp_frame_t` and the data (ngx_kmp_in.h). The flags of KMP are
masked to KMP_FRAME_FLAG_KEY on arrival (ngx_kmp_in.c:469). -/
structure In where
  id : Nat
  created : Int
  pts : Int
  dts : Int
  key : Bool
  data : List UInt8
deriving Repr, DecidableEq

/-- ngx_live_segmenter_frame_t (ngx_live_segmenter.c:89-97); `split` and `reset` are the flags
NGX_LIVE_FRAME_FLAG_SPLIT and NGX_LIVE_FRAME_FLAG_RESET_DTS_SHIFT. -/
structure Frame where
  i : In
  split : Bool
  reset : Bool
deriving Repr, DecidableEq

/-- ngx_live_segmenter_kf_t (ngx_live_segmenter.c:131-136). -/
structure Kf where
  pts : Int
  prevPts : Int
  split : Bool
  reset : Bool
  delta : Nat
deriving Repr, DecidableEq

/-- ngx_live_frame_t, a frame of a segment (ngx_live_segment_cache.h). -/
structure OutFrame where
  duration : Int
  ptsDelay : Int
  size : Nat
  key : Bool
deriving Repr, DecidableEq

/-- The fields of ngx_live_segment_t that the segmenter fills (ngx_live_segment_cache.h). -/
structure Segment where
  frames : List OutFrame
  startDts : Int
  endDts : Int
  data : List UInt8
deriving Repr, DecidableEq

/-- What happened to the frames of a track; not part of the C program. -/
inductive Ev where
  /-- A frame was accepted. -/
  | acc (f : In)
  /-- A segment was made of these frames. -/
  | seg (index : Nat) (src : List In) (s : Segment)
  /-- These frames were disposed. -/
  | drop (fs : List In)
  /-- These frames were discarded since the publisher connects again. -/
  | reset (fs : List In)
  /-- The track is added, or the publisher connects again; the next frame id is set. -/
  | jump (id : Nat)
deriving Repr, DecidableEq

/-- ngx_live_segmenter_track_ctx_t (ngx_live_segmenter.c:161-195) and the fields of ngx_live_track_t that it uses. -/
structure Track where
  media : Media
  filler : Bool := false
  state : TState := .inactive
  parts : List (List Frame) := [[]]
  shift : Nat := 0
  frameCount : Nat := 0
  startPts : Int := 0
  lastPts : Int := 0
  lastKeyPts : Int := 0
  pending : Int := 0
  nextSplit : Bool := false
  nextReset : Bool := false
  kparts : List (List Kf) := [[]]
  lastKey : Nat := 0
  removeIndex : Nat := 0
  copyIndex : Nat := 0
  splitCount : Nat := 0
  minSplit : Int := invalid
  received : Nat := 0
  receivedKey : Nat := 0
  dropped : Nat := 0
  hasLast : Bool := false
  nextId : Nat := 0
  lastFramePts : Int := 0
  lastFrameDts : Int := 0
  log : List Ev := []
deriving Repr, DecidableEq

/-- The settings of ngx_live_segmenter_channel_ctx_t (ngx_live_segmenter.c:198-214) and `segment_duration` of the channel. -/
structure Cfg where
  segDur : Nat
  minDur : Nat
  fwdSkip : Nat
  fwdJump : Nat
  backJump : Nat
  truncLimit : Nat
  addSnap : Nat
  rmSnap : Nat
  splitSnap : Nat
  candMargin : Nat
  alignMargin : Nat
  maxSpan : Nat
  ready : Nat
  initReady : Nat
  maxSkip : Nat
deriving Repr, DecidableEq

/-- The rest of ngx_live_segmenter_channel_ctx_t (ngx_live_segmenter.c:213-222). -/
structure Ctx where
  curReady : Nat
  lastEnd : Int
  nInactive : Nat := 0
  nPending : Nat := 0
  nReady : Nat := 0
  force : Bool := true
  nextForce : Bool := false
deriving Repr, DecidableEq

/-- ngx_abs_diff (ngx_live.h:46-47). -/
def absDiff (a b : Int) : Int := if b > a then b - a else a - b

/-- Conversion to `int32_t`. -/
def i32 (x : Int) : Int := Int.bmod x (2 ^ 32)

/-- Conversion to `uint32_t`. -/
def u32 (x : Int) : Nat := (x % 2 ^ 32).toNat

/-! ## Frame list -/

/-- ngx_live_segmenter_frame_list_push (ngx_live_segmenter.c:514-549), ngx_live_segmenter_kf_list_push
(ngx_live_segmenter.c:1114-1144): append to the last part, or to a new part when the last part has `n` elements. -/
def pushPart (n : Nat) (x : α) : List (List α) → List (List α)
  | [] => [[x]]
  | [p] => if p.length ≥ n then [p, [x]] else [p ++ [x]]
  | p :: ps => p :: pushPart n x ps

/-- The result of ngx_live_segmenter_frame_list_remove: ngx_live_segmenter_remove_res_t (ngx_live_segmenter.c:121-126) and the
values that it updates. -/
structure Rm where
  splitDur : Int := 0
  lastId : Nat := 0
  lastPts : Int := 0
  lastDts : Int := 0
  splitCount : Nat
  shift : Nat
deriving Repr, DecidableEq

/-- ngx_live_segmenter.c:655-657, 701-703, 718-720. -/
def Rm.note (r : Rm) (f : Frame) : Rm := { r with lastId := f.i.id, lastPts := f.i.pts, lastDts := f.i.dts }

/-- ngx_live_segmenter.c:718-720, nothing when no frame of the last part was removed. -/
def Rm.noteOpt (r : Rm) : Option Frame → Rm
  | none => r
  | some f => r.note f

/-- ngx_live_segmenter.c:669-681: `f` is before `g`. -/
def Rm.seen (r : Rm) (f g : Frame) : Res Rm :=
  if g.split then
    if r.splitCount = 0 then .ub
    else .ok { r with splitDur := r.splitDur + (g.i.pts - f.i.pts), splitCount := r.splitCount - 1,
                      shift := if g.reset ∧ r.shift > 0 then 0 else r.shift }
  else .ok r

/-- The loop of ngx_live_segmenter_frame_list_remove that looks for splits (ngx_live_segmenter.c:631-686). `f` is the current
frame, `rest` the frames after it in its part, `next` the parts after it. Returns the frame before the current frame in the
same part, the frames of the part from the current frame on, and the parts after it. "count too large" is `ub`. -/
def rmSplit : Nat → Frame → List Frame → List (List Frame) → Rm → Res (Rm × Option Frame × List Frame × List (List Frame))
  | 0, _, _, _, _ => .ub
  | left + 1, f, g :: rest, next, r => do
    let r ← r.seen f g
    if left = 0 then .ok (r, some f, g :: rest, next) else rmSplit left g rest next r
  | left + 1, f, [], [], r => if left = 0 then .ok (r, some f, [], []) else .ub
  | _ + 1, _, [], [] :: _, _ => .ub
  | left + 1, f, [], (g :: rest) :: next, r => do
    let r ← (r.note f).seen f g
    if left = 0 then .ok (r, none, g :: rest, next) else rmSplit left g rest next r

/-- The loop of ngx_live_segmenter_frame_list_remove without splits (ngx_live_segmenter.c:690-716). -/
def rmFast : Nat → List Frame → List (List Frame) → Rm → Res (Rm × Option Frame × List Frame × List (List Frame))
  | left, part, [], r =>
    if left > part.length then .ub
    else .ok (r, if left = 0 then none else part[left - 1]?, part.drop left, [])
  | left, part, p :: next, r =>
    if left ≥ part.length then
      match part.getLast? with
      | none => .ub
      | some f => rmFast (left - part.length) p next (r.note f)
    else .ok (r, if left = 0 then none else part[left - 1]?, part.drop left, p :: next)

/-- ngx_live_segmenter_frame_list_remove (ngx_live_segmenter.c:591-735). The frames that are freed are those before `count`,
ngx_live_segmenter_frame_list_free_chains (ngx_live_segmenter.c:574-588). -/
def frameRemove (parts : List (List Frame)) (shift splitCount count : Nat) (free : Bool) : Res (Rm × List (List Frame)) :=
  match parts with
  | (f :: rest) :: next => do
    let shift := if free ∧ f.reset ∧ shift > 0 then 0 else shift
    let r : Rm := { splitCount, shift }
    let (r, prev, cur, next) ←
      if splitCount > 0 then rmSplit count f rest next r else rmFast count (f :: rest) next r
    .ok (r.noteOpt prev, cur :: next)
  | _ => .ub

/-- The loop of ngx_live_segmenter_frame_list_get_min_split_pts (ngx_live_segmenter.c:757-775). -/
def minSplitLoop : Int → List Frame → Int
  | _, [] => invalid
  | prev, f :: fs => if f.split then prev else minSplitLoop f.i.pts fs

/-- ngx_live_segmenter_frame_list_get_min_split_pts (ngx_live_segmenter.c:738-780). -/
def getMinSplit : List Frame → Int
  | [] => invalid
  | f :: fs => minSplitLoop f.i.pts fs

/-- The loop of ngx_live_segmenter_frame_list_get_index (ngx_live_segmenter.c:806-829). -/
def getIndexLoop (target : Int) : List Frame → (cur index : Nat) → (diff : Int) → Nat
  | [], _, index, _ => index
  | f :: fs, cur, index, diff =>
    if f.split then index
    else
      let d := absDiff f.i.pts target
      if d ≤ diff then getIndexLoop target fs (cur + 1) (cur + 1) d
      else getIndexLoop target fs (cur + 1) index diff

/-- ngx_live_segmenter_frame_list_get_index (ngx_live_segmenter.c:783-832). -/
def getIndex (target : Int) : List Frame → Nat
  | [] => 0
  | f :: fs => if f.i.pts ≥ target then 0 else getIndexLoop target fs 1 1 (absDiff f.i.pts target)

/-- The loop of ngx_live_segmenter_frame_list_get_subtitle_indexes (ngx_live_segmenter.c:853-881); `none` is LLONG_MIN. -/
def subIndexLoop (target : Int) : List Frame → (prevStart : Option Int) → (rm cp : Nat) → Nat × Nat
  | [], _, rm, cp => (rm, cp)
  | f :: fs, prev, rm, cp =>
    if f.i.dts ≥ target ∨ (∃ p ∈ prev, f.i.dts < p) then (rm, cp)
    else subIndexLoop target fs (some f.i.dts) (if f.i.pts < target then rm + 1 else rm) (cp + 1)

/-- ngx_live_segmenter_frame_list_get_subtitle_indexes (ngx_live_segmenter.c:835-882): the indexes for removal and copy. -/
def subIndexes (target : Int) (fs : List Frame) : Nat × Nat := subIndexLoop target fs none 0 0

/-- The loop of ngx_live_segmenter_frame_list_get_truncate_index (ngx_live_segmenter.c:905-919). -/
def truncIndexLoop (target : Int) : List Frame → Nat → Nat
  | [], index => index
  | f :: fs, index => if f.i.pts ≥ target then index else truncIndexLoop target fs (index + 1)

/-- ngx_live_segmenter_frame_list_get_truncate_index (ngx_live_segmenter.c:885-922). -/
def truncIndex (target : Int) : List Frame → Nat
  | [] => 0
  | f :: fs => if f.i.pts ≥ target then 0 else truncIndexLoop target fs 1

/-- Set the duration of the last frame. -/
def setDur (d : Int) : List OutFrame → List OutFrame
  | [] => []
  | [o] => [{ o with duration := d }]
  | o :: os => o :: setDur d os

/-- State of the loop of ngx_live_segmenter_frame_list_copy. -/
structure Cp where
  prev : Option In := none
  outs : List OutFrame := []
  data : List UInt8 := []
  dtsShift : Nat := 0
  endShift : Int := 0
deriving Repr, DecidableEq

/-- ngx_live_segmenter.c:979-993: the duration of the previous frame, and what is lost when it is invalid. -/
def Cp.dur (s : Cp) (f : Frame) : Cp :=
  match s.prev with
  | none => s
  | some p =>
    let d := f.i.dts - p.dts
    if d < 0 ∨ d > 2 ^ 32 - 1 then { s with outs := setDur 0 s.outs, endShift := s.endShift - d }
    else { s with outs := setDur d s.outs }

/-- ngx_live_segmenter.c:995-1020: append the frame. The duration is set when the next frame arrives. -/
def Cp.put (shift : Nat) (s : Cp) (f : Frame) : Cp :=
  let delay := i32 (f.i.pts + shift - f.i.dts)
  { s with
    prev := some f.i
    outs := s.outs ++ [⟨0, delay, f.i.data.length, f.i.key⟩]
    data := s.data ++ f.i.data
    dtsShift := if delay < 0 then max s.dtsShift (-delay).toNat else s.dtsShift }

/-- The loop of ngx_live_segmenter_frame_list_copy (ngx_live_segmenter.c:961-1020). Returns the frames that were not copied. -/
def copyLoop (shift : Nat) : Nat → List Frame → Cp → Cp × List Frame
  | 0, fs, s => (s, fs)
  | _ + 1, [], s => (s, [])
  | left + 1, f :: fs, s => copyLoop shift left fs ((s.dur f).put shift f)

/-- The duration of the last frame (ngx_live_segmenter.c:1022-1043). -/
def lastDur (media : Media) (rest : List Frame) (prev : In) (startDts : Int) (count : Nat) : Int :=
  let avg : Int := if count > 1 then (prev.dts - startDts).tdiv (count - 1 : Nat) else 0
  let d : Int := match media, rest with
    | .subtitle, _ => 0
    | _, f :: _ => if f.split then avg else f.i.dts - prev.dts
    | _, [] => avg
  if d < 0 ∨ d > 2 ^ 32 - 1 then 0 else d

/-- ngx_live_segment_cache_shift_dts (ngx_live_segment_cache.c:449-476). -/
def shiftDts (s : Segment) (n : Nat) : Segment :=
  { s with
    frames := s.frames.map fun o => { o with ptsDelay := i32 (o.ptsDelay + n) }
    startDts := s.startDts - n
    endDts := s.endDts - n }

/-- ngx_live_segmenter_frame_list_copy (ngx_live_segmenter.c:925-1076): the segment, the new shift, and whether the result is
NGX_DECLINED. With no frames the C code dereferences NULL. -/
def frameCopy (media : Media) (fs : List Frame) (shift count : Nat) : Res (Segment × Nat × Bool) :=
  match fs with
  | [] => .ub
  | f :: _ =>
    let shift := if f.reset ∧ shift > 0 then 0 else shift
    let startDts := f.i.dts - shift
    let (s, rest) := copyLoop shift count fs {}
    match s.prev with
    | none => .ub
    | some prev =>
      let d := lastDur media rest prev startDts count
      let seg : Segment :=
        { frames := setDur d s.outs, startDts, endDts := prev.dts + d - shift + s.endShift, data := s.data }
      if s.dtsShift > 0 then
        .ok (shiftDts seg s.dtsShift, (shift + s.dtsShift) % 2 ^ 32, decide (s.endShift ≠ 0))
      else .ok (seg, shift, decide (s.endShift ≠ 0))

/-! ## Key frame list -/

/-- The loop of ngx_live_segmenter_kf_list_remove over one part (ngx_live_segmenter.c:1172-1196): the part from the first key
frame that stays, or what is left to remove. -/
def kfPart : Nat → List Kf → Option (List Kf) × Nat
  | left, [] => (none, left)
  | left, k :: ks => if k.delta ≥ left then (some ({ k with delta := k.delta - left } :: ks), 0) else kfPart (left - k.delta) ks

/-- The loop of ngx_live_segmenter_kf_list_remove (ngx_live_segmenter.c:1166-1206). -/
def kfParts : Nat → List Kf → List (List Kf) → Res (List (List Kf))
  | left, part, next =>
    match kfPart left part with
    | (some rest, _) => .ok (rest :: next)
    | (none, left) =>
      match next with
      | [] => .ok [[]]
      | [] :: _ => .ub
      | (k :: ks) :: next => kfParts left (k :: ks) next

/-- ngx_live_segmenter_kf_list_remove (ngx_live_segmenter.c:1147-1207): the list and `last_key_index`. -/
def kfRemove (kparts : List (List Kf)) (lastKey count : Nat) : Res (List (List Kf) × Nat) :=
  match kparts with
  | [] => .ub
  | part :: next => do
    let ks ← kfParts count part next
    .ok (ks, if count ≥ lastKey then 0 else lastKey - count)

/-- The loop of ngx_live_segmenter_kf_list_get_index (ngx_live_segmenter.c:1335-1361). -/
def kfIndexLoop (target : Int) : List Kf → (cur index : Nat) → (diff : Int) → Nat
  | [], _, index, _ => index
  | k :: ks, cur, index, diff =>
    let cur := cur + k.delta
    let d := absDiff k.prevPts target
    let (index, diff) := if d ≤ diff then (cur, d) else (index, diff)
    if k.split then index else kfIndexLoop target ks cur index diff

/-- ngx_live_segmenter_kf_list_get_index (ngx_live_segmenter.c:1313-1362). -/
def kfIndex (target : Int) : List Kf → Nat
  | [] => 0
  | k :: ks => if k.pts ≥ target then 0 else kfIndexLoop target ks k.delta k.delta (absDiff k.pts target)

/-- The loop of ngx_live_segmenter_kf_list_get_truncate_index (ngx_live_segmenter.c:1385-1402). -/
def kfTruncLoop (target : Int) : List Kf → Nat → Nat
  | [], index => index
  | k :: ks, index => if k.prevPts ≥ target then index else kfTruncLoop target ks (index + k.delta)

/-- ngx_live_segmenter_kf_list_get_truncate_index (ngx_live_segmenter.c:1365-1405). -/
def kfTrunc (target : Int) : List Kf → Nat
  | [] => 0
  | k :: ks => if k.pts ≥ target then 0 else kfTruncLoop target ks k.delta

/-! ## Candidates -/

/-- ngx_live_segmenter_candidate_t (ngx_live_segmenter.c:71-74). -/
structure Cand where
  pts : Int
  count : Nat
deriving Repr, DecidableEq

/-- The loop of ngx_live_segmenter_candidate_list_add (ngx_live_segmenter.c:391-407): the list when the time is merged to an
element, else the position for a new element. -/
def candFind (margin : Nat) (pts : Int) : List Cand → List Cand ⊕ Nat
  | [] => .inr 0
  | c :: cs =>
    if pts < c.pts - margin then .inr 0
    else if pts ≥ c.pts + margin then
      match candFind margin pts cs with
      | .inl cs => .inl (c :: cs)
      | .inr n => .inr (n + 1)
    else .inl (⟨(c.pts * c.count + pts).tdiv (c.count + 1 : Nat), c.count + 1⟩ :: cs)

/-- ngx_live_segmenter_candidate_list_add (ngx_live_segmenter.c:382-454). -/
def candAdd (margin : Nat) (boundary : Int) (cs : List Cand) (pts : Int) : List Cand :=
  match candFind margin pts cs with
  | .inl cs => cs
  | .inr n =>
    if cs.length < candMax then cs.take n ++ ⟨pts, 1⟩ :: cs.drop n
    else
      let firstDiff := absDiff (cs.head?.map (·.pts) |>.getD 0) boundary
      let lastDiff := absDiff (cs.getLast?.map (·.pts) |>.getD 0) boundary
      if firstDiff < lastDiff then
        if absDiff pts boundary > lastDiff ∨ n ≥ cs.length then cs
        else cs.take n ++ ⟨pts, 1⟩ :: (cs.drop n).dropLast
      else
        if absDiff pts boundary > firstDiff ∨ n = 0 then cs
        else (cs.take n).drop 1 ++ ⟨pts, 1⟩ :: cs.drop n

/-- ngx_live_segmenter_candidate_list_truncate (ngx_live_segmenter.c:457-470). -/
def candTruncate (cs : List Cand) (pts : Int) : List Cand :=
  (cs.reverse.dropWhile fun c => !decide (c.pts < pts)).reverse

/-- The loop of ngx_live_segmenter_kf_list_add_candidates (ngx_live_segmenter.c:1229-1247). -/
def kfCandLoop (margin : Nat) (boundary minPts maxPts : Int) : List Kf → List Cand → List Cand
  | [], cs => cs
  | k :: ks, cs =>
    let cs := if k.prevPts ≥ minPts ∧ k.prevPts < maxPts then candAdd margin boundary cs k.prevPts else cs
    if k.split then cs else kfCandLoop margin boundary minPts maxPts ks cs

/-- ngx_live_segmenter_kf_list_add_candidates (ngx_live_segmenter.c:1210-1247): the first key frame is skipped. -/
def kfCands (margin : Nat) (boundary minPts maxPts : Int) (ks : List Kf) (cs : List Cand) : List Cand :=
  kfCandLoop margin boundary minPts maxPts (ks.drop 1) cs

/-- Replace a result when the time is closer to the candidate (ngx_live_segmenter.c:1272-1277, 1297-1303, 2146-2151). -/
def closer (pts : Int) (cs : List Cand) (res : List Int) : List Int :=
  List.zipWith (fun c r => if r = invalid ∨ absDiff pts c.pts < absDiff r c.pts then pts else r) cs res

/-- The loop of ngx_live_segmenter_kf_list_find_nearest_pts (ngx_live_segmenter.c:1282-1309). -/
def nearestLoop (cs : List Cand) : List Kf → List Int → List Int
  | [], res => res
  | k :: ks, res =>
    let res := closer k.prevPts cs res
    if k.split then res else nearestLoop cs ks res

/-- ngx_live_segmenter_kf_list_find_nearest_pts (ngx_live_segmenter.c:1250-1310). -/
def nearest (cs : List Cand) : List Kf → List Int → List Int
  | [], res => res
  | k :: ks, res => nearestLoop cs ks (closer k.pts cs res)

/-! ## Tracks -/

/-- ngx_live_segmenter.c:1457, 3523: the counter of a state goes down. A counter below zero is `ub`. -/
def leaveState (c : Ctx) : TState → Res Ctx
  | .inactive => if c.nInactive = 0 then .ub else .ok { c with nInactive := c.nInactive - 1 }
  | .pending => if c.nPending = 0 then .ub else .ok { c with nPending := c.nPending - 1 }
  | .ready => if c.nReady = 0 then .ub else .ok { c with nReady := c.nReady - 1 }

/-- ngx_live_segmenter_set_state (ngx_live_segmenter.c:1440-1473), the counters. -/
def setState (c : Ctx) (t : Track) (s : TState) : Res (Ctx × Track) :=
  if t.state = s then .ok (c, t)
  else do
    let c ← leaveState c t.state
    let c : Ctx := match s with
      | .inactive => { c with nInactive := c.nInactive + 1 }
      | .pending => { c with nPending := c.nPending + 1 }
      | .ready => { c with nReady := c.nReady + 1 }
    .ok (c, { t with state := s })

/-- The pending frames, and the pending key frames. -/
def Track.fs (t : Track) : List Frame := t.parts.flatten
def Track.ks (t : Track) : List Kf := t.kparts.flatten

/-- The first frame of a list of parts gets the split flag (ngx_live_segmenter.c:1969-1970). -/
def markFrame : List (List Frame) → List (List Frame)
  | (f :: fs) :: ps => ({ f with split := true } :: fs) :: ps
  | ps => ps

/-- The first key frame gets the split flag when it is the first frame (ngx_live_segmenter.c:1972-1976). -/
def markKf : List (List Kf) → List (List Kf)
  | (k :: ks) :: ps => if k.delta = 0 then ({ k with split := true } :: ks) :: ps else (k :: ks) :: ps
  | ps => ps

/-- The first part of a list has no elements: `part.nelts` is 0. -/
def noFirst : List (List α) → Bool
  | [] :: _ => true
  | [] => true
  | _ => false

/-- ngx_live_segmenter.c:1946-1981: the next frame starts a period, when splits were removed or frames disposed. -/
def enableSplit (t : Track) (initial : Nat) (free : Bool) : Track :=
  let t := if t.splitCount ≠ initial then
      { t with minSplit := if t.splitCount > 0 then getMinSplit t.fs else invalid }
    else t
  if t.splitCount ≠ initial ∨ free then
    if noFirst t.parts then { t with nextSplit := true }
    else { t with parts := markFrame t.parts, kparts := markKf t.kparts }
  else t

/-- ngx_live_segmenter.c:1924-1944: the start and the duration of the pending frames. -/
def refresh (t : Track) (splitDur : Int) : Track :=
  match t.parts with
  | (f :: _) :: _ => { t with pending := t.pending - (f.i.pts - t.startPts - splitDur), startPts := f.i.pts }
  | _ => { t with pending := 0 }

/-- ngx_live_segmenter.c:1924-1944: a track that is ready may need more frames now. -/
def restart (c : Ctx) (t : Track) (splitDur : Int) : Res (Ctx × Track) :=
  let t := refresh t splitDur
  if t.state = .ready ∧ (noFirst t.parts ∨ t.pending < (c.curReady : Int)) then setState c t .pending else .ok (c, t)

/-- ngx_live_segmenter.c:1922-1924: only video tracks have a key frame list. -/
def keysRemove (t : Track) (count : Nat) : Res (List (List Kf) × Nat) :=
  if t.media = .video then kfRemove t.kparts t.lastKey count else .ok (t.kparts, t.lastKey)

/-- ngx_live_segmenter.c:1897-1924: the track after `count` frames were removed, before the next frame is marked. -/
def removed (t : Track) (count : Nat) (free : Bool) (parts : List (List Frame)) (kparts : List (List Kf)) (lastKey : Nat) (r : Rm) : Track :=
  { t with
    frameCount := t.frameCount - count
    log := if free then t.log ++ [.drop ((t.fs.take count).map (·.i))] else t.log
    dropped := if free then t.dropped + count else t.dropped
    parts, kparts, lastKey
    splitCount := r.splitCount, shift := r.shift
    lastFramePts := r.lastPts, lastFrameDts := r.lastDts, nextId := r.lastId + 1 }

/-- ngx_live_segmenter_remove_frames (ngx_live_segmenter.c:1880-1994). Events, media info, acks and the release of input
buffers are not modelled. The frames that are freed go to the log. -/
def removeFrames (c : Ctx) (t : Track) (count : Nat) (free : Bool) : Res (Ctx × Track) :=
  if count = 0 then .ok (c, t)
  else if t.frameCount < count then .ub
  else do
    let (r, parts) ← frameRemove t.parts t.shift t.splitCount count free
    let (kparts, lastKey) ← keysRemove t count
    let (c, t') ← restart c (removed t count free parts kparts lastKey r) r.splitDur
    .ok (c, enableSplit t' t.splitCount free)

/-- ngx_live_segmenter_remove_all_frames (ngx_live_segmenter.c:1997-2031). -/
def removeAll (c : Ctx) (t : Track) : Res (Ctx × Track) :=
  let t := { t with
    log := t.log ++ [.reset (t.fs.map (·.i))]
    parts := [[]], kparts := [[]], lastKey := 0
    frameCount := 0, splitCount := 0, pending := 0, minSplit := invalid }
  if t.state = .ready then setState c t .pending else .ok (c, t)

/-- ngx_live_segmenter_add_media_info (ngx_live_segmenter.c:3105-3140), when the media info is new. -/
def addMediaInfo (t : Track) : Track := { t with nextSplit := true, nextReset := true }

/-- ngx_live_segmenter.c:3217-3218: the frame can start a segment. -/
def starts (t : Track) (i : In) : Bool := decide (t.media ≠ .video) || i.key

/-- ngx_live_segmenter.c:3230-3251: the time of the frame is far from the time of the last frame. -/
def jumps (g : Cfg) (t : Track) (i : In) : Bool :=
  decide (t.frameCount > 0) && (decide (i.pts < t.lastPts - (g.backJump : Int)) || decide (i.pts > t.lastPts + (g.fwdJump : Int)))

/-- ngx_live_segmenter.c:3210-3251: the frame and its flags. -/
def newFrame (g : Cfg) (t : Track) (i : In) : Frame :=
  if starts t i then ⟨i, t.nextSplit || jumps g t i, t.nextReset⟩ else ⟨i, false, false⟩

/-- ngx_live_segmenter_add_frame (ngx_live_segmenter.c:3194-3293): the frame is appended, to the list of frames and maybe to the
list of key frames. -/
def pushFrame (g : Cfg) (t : Track) (i : In) : Track :=
  let f := newFrame g t i
  { t with
    received := t.received + 1
    receivedKey := if i.key then t.receivedKey + 1 else t.receivedKey
    nextSplit := t.nextSplit && !starts t i
    nextReset := t.nextReset && !starts t i
    pending := if starts t i ∧ t.frameCount > 0 then t.pending + ((if f.split then t.lastPts else i.pts) - t.lastKeyPts)
      else t.pending
    lastKeyPts := if starts t i then i.pts else t.lastKeyPts
    kparts := if t.media = .video ∧ starts t i then
        pushPart kfPartMax ⟨i.pts, t.lastPts, f.split, f.reset, t.frameCount - t.lastKey⟩ t.kparts
      else t.kparts
    lastKey := if t.media = .video ∧ starts t i then t.frameCount else t.lastKey
    parts := pushPart framePart f t.parts
    startPts := if t.frameCount = 0 then i.pts else t.startPts
    splitCount := if t.frameCount > 0 ∧ f.split then t.splitCount + 1 else t.splitCount
    minSplit := if t.frameCount > 0 ∧ f.split ∧ t.minSplit = invalid then t.lastPts else t.minSplit
    lastPts := i.pts
    frameCount := t.frameCount + 1
    log := t.log ++ [Ev.acc i] }

/-- ngx_live_segmenter_add_frame (ngx_live_segmenter.c:3143-3324). A frame that is refused or skipped changes nothing; a failed
allocation, which frees the channel, is not modelled. A track that is inactive becomes pending, and then maybe ready. -/
def addFrame (g : Cfg) (c : Ctx) (t : Track) (id : Nat) (created dts delay : Int) (key : Bool) (data : List UInt8) :
    Res (Ctx × Track) :=
  if delay ≥ 0 ∧ dts ≥ invalid - delay then .ok (c, t)
  else if t.frameCount ≥ frameMax then .ok (c, t)
  else if key = false ∧ t.frameCount = 0 ∧ t.media = .video then .ok (c, t)
  else
    let t := pushFrame g t ⟨id, created, dts + delay, dts, key, data⟩
    if t.media = .subtitle ∨ t.state = .ready then .ok (c, t)
    else setState c t (if t.pending ≥ (c.curReady : Int) then .ready else .pending)

/-- ngx_live_segmenter_start_stream (ngx_live_segmenter.c:3328-3358): the track, and the number of frames to skip. -/
def startStream (g : Cfg) (c : Ctx) (t : Track) (initial : Nat) : Res (Ctx × Track × Nat) := do
  let (c, t) ← removeAll c t
  if t.nextId > initial then
    if t.nextId - initial > g.maxSkip then .ok (c, { t with nextId := initial, log := t.log ++ [.jump initial] }, 0)
    else .ok (c, t, t.nextId - initial)
  else .ok (c, t, 0)

/-! ## The creation of segments -/

/-- A mask of media types. -/
structure Mask where
  video : Bool := false
  audio : Bool := false
  subtitle : Bool := false
deriving Repr, DecidableEq

def Mask.add (m : Mask) : Media → Mask
  | .video => { m with video := true }
  | .audio => { m with audio := true }
  | .subtitle => { m with subtitle := true }

def Mask.isEmpty (m : Mask) : Bool := !(m.video || m.audio || m.subtitle)

/-- A loop over the tracks of the channel that updates the tracks, the context and an accumulator. -/
def forTracks (f : Ctx → Track → α → Res (Ctx × Track × α)) : Ctx → List Track → α → Res (Ctx × List Track × α)
  | c, [], a => .ok (c, [], a)
  | c, t :: ts, a => do
    let (c, t, a) ← f c t a
    let (c, ts, a) ← forTracks f c ts a
    .ok (c, t :: ts, a)

/-- ngx_live_segmenter.c:2060-2080: the number of frames before the start of the segment. -/
def stripCount (g : Cfg) (c : Ctx) (t : Track) : Nat :=
  if !t.hasLast || c.force || (t.fs.head?.map (·.split)).getD false || t.media = .subtitle then
    if t.media = .video then kfTrunc (c.lastEnd + g.addSnap) t.ks
    else truncIndex c.lastEnd t.fs
  else 0

/-- The body of ngx_live_segmenter_prepare_create_segment (ngx_live_segmenter.c:2047-2107): media types and the least start. -/
def prepTrack (g : Cfg) (c : Ctx) (t : Track) (a : Mask × Int) : Res (Ctx × Track × (Mask × Int)) :=
  if t.frameCount = 0 then .ok (c, t, a)
  else do
    let (c, t) ← removeFrames c t (stripCount g c t) true
    .ok (c, t, if t.frameCount = 0 ∨ t.media = .subtitle then a
      else (a.1.add t.media, if t.startPts < a.2 then t.startPts else a.2))

/-- ngx_live_segmenter_prepare_create_segment (ngx_live_segmenter.c:2034-2107). -/
def prepare (g : Cfg) (c : Ctx) (ts : List Track) : Res (Ctx × List Track × (Mask × Int)) :=
  forTracks (prepTrack g) c ts ({}, invalid)

/-- Accumulator of ngx_live_segmenter_candidates_get. -/
structure Cands where
  elts : List Cand := []
  types : Mask := {}
  minSplit : Int := invalid
  snap : Nat := 0
  curSnap : Nat := 0
deriving Repr, DecidableEq

/-- ngx_live_segmenter.c:2189-2246: the time of a split that limits the segment. -/
def trackSplit (g : Cfg) (c : Ctx) (start : Int) (t : Track) (a : Cands) : Cands × Int :=
  if (!t.hasLast || c.force) ∧ t.startPts > start + g.addSnap then ({ a with curSnap := g.addSnap }, t.startPts)
  else if t.minSplit ≠ invalid then ({ a with types := a.types.add t.media, curSnap := g.splitSnap }, t.minSplit)
  else if t.state ≠ .ready then ({ a with types := a.types.add t.media, curSnap := g.rmSnap }, t.lastPts)
  else ({ a with types := a.types.add t.media }, invalid)

/-- The body of the loop of ngx_live_segmenter_candidates_get (ngx_live_segmenter.c:2180-2256). -/
def trackCands (g : Cfg) (c : Ctx) (start : Int) (a : Cands) (t : Track) : Cands :=
  if t.media = .subtitle ∨ t.frameCount = 0 then a
  else
    let (a, split) := trackSplit g c start t a
    let a := if split < a.minSplit then
        { a with minSplit := split, snap := a.curSnap, elts := candTruncate a.elts split }
      else a
    if t.receivedKey ≥ t.received / 2 then a
    else { a with elts := kfCands g.candMargin (start + g.segDur) (start + g.minDur) a.minSplit t.ks a.elts }

/-- ngx_live_segmenter_candidates_get (ngx_live_segmenter.c:2156-2267): the candidates, and the least split. -/
def getCands (g : Cfg) (c : Ctx) (start : Int) (ts : List Track) : List Cand × Int :=
  let boundary := start + g.segDur
  let a := ts.foldl (trackCands g c start) {}
  let cs := if a.minSplit ≠ invalid then candAdd g.candMargin boundary a.elts a.minSplit else a.elts
  let cs := if ¬ a.types.video ∧ boundary + a.snap < a.minSplit then candAdd g.candMargin boundary cs boundary else cs
  (cs, a.minSplit)

/-- ngx_live_segmenter_find_nearest_keyframe_pts (ngx_live_segmenter.c:2110-2153). -/
def findNearest (t : Track) (cs : List Cand) (hasLast : Bool) : List Int :=
  let init := cs.map fun x => if hasLast then invalid else if x.pts ≤ t.startPts then x.pts else invalid
  let res := nearest cs t.ks init
  if t.state ≠ .inactive ∨ t.splitCount > 0 then res else closer t.lastPts cs res

/-- ngx_live_segmenter_candidates_get_span (ngx_live_segmenter.c:2271-2329): the least and the greatest time of every
candidate. -/
def getSpan (c : Ctx) (cs : List Cand) : List Track → List (Int × Int) → List (Int × Int)
  | [], spans => spans
  | t :: ts, spans =>
    if t.media ≠ .video then spans
    else if t.frameCount = 0 ∨ t.receivedKey ≥ t.received / 2 then getSpan c cs ts spans
    else
      let near := findNearest t cs (t.hasLast && !c.force)
      getSpan c cs ts (List.zipWith (fun (n : Int) (s : Int × Int) =>
        ((if n < s.1 then n else s.1), (if n > s.2 then n else s.2))) near spans)

/-- ngx_live_segmenter.c:2378-2419: the candidate that is closest to the boundary, among those with a small span. -/
def choose (g : Cfg) (boundary minDiff : Int) : List Cand → List (Int × Int) → Int → Int
  | x :: cs, (lo, hi) :: spans, target =>
    if hi - lo > minDiff then choose g boundary minDiff cs spans target
    else
      let cur := if hi - lo < g.maxSpan then (hi + lo).tdiv 2 else x.pts
      let target := if target = invalid ∨ absDiff cur boundary < absDiff target boundary then cur else target
      choose g boundary minDiff cs spans target
  | _, _, target => target

/-- ngx_live_segmenter_get_segment_times (ngx_live_segmenter.c:2332-2438): start, end, and the least split. -/
def segTimes (g : Cfg) (c : Ctx) (ts : List Track) (minPts : Int) : Res (Int × Int × Int) :=
  let skip := if c.force then 0 else g.fwdSkip
  let start := if minPts > c.lastEnd + skip then minPts else c.lastEnd
  let boundary := start + g.segDur
  let (cs, minSplit) := getCands g c start ts
  if cs = [] then .ok (start, boundary, minSplit)
  else
    let spans := getSpan c cs ts (cs.map fun x => (x.pts, x.pts))
    let minDiff := spans.foldl (fun m s => if s.2 - s.1 < m then s.2 - s.1 else m) invalid + g.alignMargin
    let target := choose g boundary minDiff cs spans invalid
    if target = invalid then .err
    else
      let least := start + g.minDur
      .ok (start, (if target < least then least else target), minSplit)

/-- ngx_live_segmenter.c:2489-2523: the number of frames that a track gives to the segment. -/
def splitIndex (g : Cfg) (force : Bool) (start target : Int) (t : Track) : Nat :=
  let duration := u32 (target - start)
  let addMax := max (target - g.addSnap) (target - (duration / 4 : Nat))
  if t.state ≠ .ready ∧ t.splitCount = 0 ∧ t.lastPts ≤ target + g.rmSnap then t.frameCount
  else if (!t.hasLast || force) ∧ t.startPts > addMax then 0
  else
    let cur := if target + g.splitSnap < t.minSplit then target else target + g.splitSnap
    if t.media = .video then kfIndex cur t.ks else getIndex cur t.fs

/-- The body of ngx_live_segmenter_set_split_indexes (ngx_live_segmenter.c:2468-2555): media types, and whether to abort.
`force` is the value at the start of the loop. -/
def splitTrack (g : Cfg) (force : Bool) (start target : Int) (c : Ctx) (t : Track) (a : Mask × Bool) :
    Res (Ctx × Track × (Mask × Bool)) :=
  if t.frameCount = 0 then .ok (c, { t with copyIndex := 0 }, a)
  else if t.media = .subtitle then
    let (rm, cp) := subIndexes target t.fs
    .ok (c, { t with removeIndex := rm, copyIndex := cp }, (if cp > 0 then a.1.add .subtitle else a.1, a.2))
  else
    let n := splitIndex g force start target t
    let t := { t with removeIndex := n, copyIndex := n }
    if n = 0 then
      if force ∧ t.startPts > start + g.truncLimit then .ok (c, t, a)
      else .ok (c, t, (a.1, a.2 || t.hasLast || force))
    else
      let c := if (t.fs.head?.map (·.split)).getD false ∧ t.hasLast then { c with force := true } else c
      .ok (c, t, (a.1.add t.media, a.2))

/-- ngx_live_segmenter_set_split_indexes (ngx_live_segmenter.c:2441-2559): the media types, and whether the result is
NGX_ABORT. -/
def setSplit (g : Cfg) (c : Ctx) (ts : List Track) (start target : Int) : Res (Ctx × List Track × (Mask × Bool)) :=
  forTracks (splitTrack g c.force start target) c ts ({}, false)

/-- The body of ngx_live_segmenter_dispose_segment (ngx_live_segmenter.c:2633-2658): whether a track was visited, and whether
one of them was ready. -/
def disposeTrack (c : Ctx) (t : Track) (a : Bool × Bool) : Res (Ctx × Track × (Bool × Bool)) :=
  if t.copyIndex = 0 then .ok (c, t, a)
  else do
    let a := (true, a.2 || decide (t.state = .ready))
    let (c, t) ← removeFrames c t t.removeIndex true
    .ok (c, t, a)

/-- ngx_live_segmenter_dispose_segment (ngx_live_segmenter.c:2618-2679). -/
def dispose (c : Ctx) (ts : List Track) (stop : Int) : Res (Ctx × List Track) := do
  let (c, ts, a) ← forTracks disposeTrack c ts (false, false)
  if !a.1 then .err
  else if !a.2 then .ok (c, ts)
  else .ok ({ c with lastEnd := stop, force := true }, ts)

/-- An answer of ngx_live_media_info_pending_create_segment or ngx_live_media_info_queue_fill_gaps. -/
inductive Ans where
  | done
  | changed
  | fail
deriving Repr, DecidableEq

/-- An answer of ngx_live_filler_fill. -/
inductive Fill where
  | ok (duration : Nat)
  | done
  | fail
deriving Repr, DecidableEq

/-- What the rest of the module answers while a segment is created. Tracks are numbered by position. -/
structure Env where
  /-- ngx_live_media_info_pending_create_segment (ngx_live_segmenter.c:2698). -/
  info : Nat → Ans := fun _ => .done
  /-- `last_segment_bitrate` of a track that is added is not zero (ngx_live_segmenter.c:2816). -/
  usedFiller : Nat → Bool := fun _ => false
  /-- A filler was added, and the segment needs it (ngx_live_segmenter.c:2853-2854). -/
  fillerAdded : Bool := false
  /-- ngx_live_media_info_queue_fill_gaps (ngx_live_segmenter.c:2865). -/
  gaps : Ans := .done
  /-- The segment has to wait for the input delay (ngx_live_segmenter.c:2945-2969). -/
  delay : Bool := false
  /-- ngx_live_filler_fill, when `filler_media_types` is set (ngx_live_segmenter.c:3012). -/
  fill : Option Fill := none
  /-- An allocation, the timelines or the segment index fail. -/
  fail : Bool := false

/-- ngx_live_segmenter_track_create_segment (ngx_live_segmenter.c:2682-2764). -/
def trackCreate (env : Env) (index n : Nat) (c : Ctx) (t : Track) : Res (Ctx × Track) :=
  if env.info n = .fail ∨ env.fail then .err
  else
    let c := if env.info n = .changed ∧ t.media ≠ .subtitle then { c with force := true } else c
    match frameCopy t.media t.fs t.shift t.copyIndex with
    | .ok (s, shift, declined) =>
      removeFrames (if declined then { c with nextForce := true } else c)
        { t with shift, hasLast := true, log := t.log ++ [.seg index ((t.fs.take t.copyIndex).map (·.i)) s] } t.removeIndex false
    | .err => .err
    | .ub => .ub

/-- The body of ngx_live_segmenter_create_segment (ngx_live_segmenter.c:2783-2842); the accumulator has the position of the
track and the media types. -/
def createTrack (env : Env) (index : Nat) (c : Ctx) (t : Track) (a : Nat × Mask) : Res (Ctx × Track × (Nat × Mask)) :=
  if t.copyIndex = 0 then
    if t.filler then .ok (c, t, (a.1 + 1, a.2))
    else
      let c := if t.media ≠ .subtitle ∧ t.hasLast then { c with force := true } else c
      .ok (c, { t with hasLast := false }, (a.1 + 1, a.2))
  else do
    let c := if t.media ≠ .subtitle ∧ !t.hasLast ∧ env.usedFiller a.1 then { c with force := true } else c
    let (c, t) ← trackCreate env index a.1 c t
    .ok (c, t, (a.1 + 1, a.2.add t.media))

/-- ngx_live_segmenter_create_segment (ngx_live_segmenter.c:2767-2893). -/
def createSegment (env : Env) (index : Nat) (c : Ctx) (ts : List Track) : Res (Ctx × List Track) := do
  let (c, ts, a) ← forTracks (createTrack env index) c ts (0, {})
  if a.2.isEmpty then .err
  else
    let c := if env.fillerAdded then { c with force := true } else c
    match env.gaps with
    | .fail => .err
    | .done => .ok (c, ts)
    | .changed => .ok ({ c with force := true }, ts)

/-- A segment of the channel, as it is added to the timelines. -/
structure SegOut where
  index : Nat
  start : Int
  stop : Int
  duration : Nat
  newPeriod : Bool
deriving Repr, DecidableEq

/-- The channel. `out` is the list of segments that were added to the timelines, it is not part of the C program. -/
structure Chan where
  c : Ctx
  ts : List Track
  nextIndex : Nat
  out : List SegOut := []
deriving Repr, DecidableEq

/-- One iteration of the loop of ngx_live_segmenter_create_segments leaves the loop, or goes on. -/
inductive Step where
  | leave (ch : Chan)
  | more (ch : Chan)
deriving Repr, DecidableEq

/-- ngx_live_segmenter.c:3093-3095: the channel becomes inactive. -/
def leave (g : Cfg) (ch : Chan) : Step :=
  .leave (if ch.c.nInactive ≥ ch.ts.length then { ch with c := { ch.c with curReady := g.initReady } } else ch)

/-- ngx_live_segmenter.c:3048-3090: the segment is created and added to the timelines. -/
def commit (g : Cfg) (env : Env) (ch : Chan) (start stop : Int) : Res Step := do
  let c := { ch.c with curReady := g.ready, nextForce := false }
  let (c, ts) ← createSegment env ch.nextIndex c ch.ts
  .ok (.more
    { c := { c with lastEnd := stop, force := c.nextForce }
      ts, nextIndex := ch.nextIndex + 1
      out := ch.out ++ [⟨ch.nextIndex, start, stop, u32 (stop - start), c.force⟩] })

/-- ngx_live_segmenter.c:2994-2999, 3031-3039: the segment is disposed, and the loop goes on. -/
def abort (ch : Chan) (stop : Int) : Res Step := do
  let (c, ts) ← dispose ch.c ch.ts stop
  .ok (.more { ch with c, ts })

/-- ngx_live_segmenter_fill (ngx_live_segmenter.c:2562-2615): the end of the segment. -/
def fillEnd (env : Env) (start stop : Int) : Res Int :=
  match env.fill with
  | none => .ok stop
  | some (.ok d) => .ok (start + d)
  | some .done => .ok stop
  | some .fail => .err

/-- ngx_live_segmenter.c:3008-3090: the end of the segment may change with the filler, then the indexes are computed again.
`split` is the end for which they were computed, 0 for none. -/
def finish (g : Cfg) (env : Env) (ch : Chan) (start stop split : Int) : Res Step := do
  let stop ← fillEnd env start stop
  if stop ≠ split then
    let (c, ts, a) ← setSplit g ch.c ch.ts start stop
    let ch := { ch with c, ts }
    if a.2 then abort ch stop else commit g env ch start stop
  else commit g env ch start stop

/-- ngx_live_segmenter.c:2971-3006: after the times were chosen. -/
def cut (g : Cfg) (env : Env) (ch : Chan) (video : Bool) (start stop : Int) : Res Step := do
  let ch := if start ≠ ch.c.lastEnd then { ch with c := { ch.c with force := true } } else ch
  if video then
    let (c, ts, a) ← setSplit g ch.c ch.ts start stop
    let ch := { ch with c, ts }
    if a.2 then abort ch stop else finish g env ch start stop stop
  else finish g env ch start stop 0

/-- An iteration of the loop of ngx_live_segmenter_create_segments (ngx_live_segmenter.c:2917-3091), and what follows the
loop. -/
def pass (g : Cfg) (env : Env) (ch : Chan) : Res Step :=
  if ch.c.nPending > 0 then .ok (leave g ch)
  else do
    let (c, ts, a) ← prepare g ch.c ch.ts
    let ch := { ch with c, ts }
    if c.nPending > 0 then .ok (leave g ch)
    else if a.1.isEmpty then .ok (leave g { ch with c := { c with force := true } })
    else if ch.nextIndex ≥ 2 ^ 32 - 2 then .err
    else do
      let (start, stop, _) ← segTimes g c ts a.2
      if env.delay then .ok (.leave ch)
      else cut g env ch a.1.video start stop

/-! ## The events of a channel -/

/-- Apply a function to the track at a position. -/
def onTrack (ch : Chan) (n : Nat) (f : Ctx → Track → Res (Ctx × Track)) : Res Chan :=
  match ch.ts[n]? with
  | none => .ok ch
  | some t => do
    let (c, t) ← f ch.c t
    .ok { ch with c, ts := ch.ts.set n t }

inductive Op where
  /-- A track is added (ngx_live_segmenter_track_init, ngx_live_segmenter.c:3465-3498). -/
  | addTrack (n : Nat) (media : Media) (filler hasLast : Bool) (nextId : Nat)
  /-- A track is freed (ngx_live_segmenter_track_free, ngx_live_segmenter.c:3501-3534). -/
  | freeTrack (n : Nat)
  | frame (n : Nat) (id : Nat) (created dts delay : Int) (key : Bool) (data : List UInt8)
  | info (n : Nat)
  | start (n : Nat) (initial : Nat)
  /-- The stream ends, or is silent (ngx_live_segmenter_end_stream, ngx_live_segmenter.c:3361-3382,
  ngx_live_segmenter_inactive_handler, ngx_live_segmenter.c:3399-3448). -/
  | inactive (n : Nat)
  /-- The configuration changes (ngx_live_segmenter_channel_conf_changed, ngx_live_segmenter.c:3553-3590); the settings are
  those that the next event has. -/
  | conf (curReady : Nat)
  /-- An iteration of the creation of segments. -/
  | pass (env : Env)

/-- ngx_live_segmenter_track_init (ngx_live_segmenter.c:3465-3498). -/
def addTrack (ch : Chan) (n : Nat) (media : Media) (filler hasLast : Bool) (nextId : Nat) : Chan :=
  { ch with
    c := { ch.c with nInactive := ch.c.nInactive + 1 }
    ts := ch.ts.take n ++ { media, filler, hasLast, nextId, log := [.jump nextId] } :: ch.ts.drop n }

/-- ngx_live_segmenter_track_free (ngx_live_segmenter.c:3501-3534). The track was removed from the channel already. -/
def freeTrack (g : Cfg) (ch : Chan) (n : Nat) : Res Chan :=
  match ch.ts[n]? with
  | none => .ok ch
  | some t => do
    let c ← leaveState ch.c t.state
    let ts := ch.ts.eraseIdx n
    .ok { ch with ts, c := if t.state ≠ .inactive ∧ c.nInactive ≥ ts.length then { c with curReady := g.initReady } else c }

/-- The channel after an event. `err` is the end of the channel. -/
def step (g : Cfg) (ch : Chan) : Op → Res Chan
  | .addTrack n media filler hasLast nextId => .ok (addTrack ch n media filler hasLast nextId)
  | .freeTrack n => freeTrack g ch n
  | .frame n id created dts delay key data => onTrack ch n fun c t => addFrame g c t id created dts delay key data
  | .info n => onTrack ch n fun c t => .ok (c, addMediaInfo t)
  | .start n initial => onTrack ch n fun c t => do
    let (c, t, _) ← startStream g c t initial
    .ok (c, t)
  | .inactive n => onTrack ch n fun c t => setState c t .inactive
  | .conf curReady => .ok { ch with c := { ch.c with curReady } }
  | .pass env => do
    match ← pass g env ch with
    | .leave ch => .ok ch
    | .more ch => .ok ch

/-! ## The validator of debug builds -/

/-- The variables of the loop of ngx_live_segmenter_validate_track_ctx; `ok` is false after an alert. -/
structure Vst where
  ks : List Kf
  firstKf : Bool := true
  index : Nat := 0
  lastKey : Nat := 0
  splitCount : Nat := 0
  minSplit : Int := invalid
  prev : Int := invalid
  lastKeyPts : Int := 0
  pending : Int := 0
  ok : Bool := true
deriving Repr, DecidableEq

/-- ngx_live_segmenter.c:1617-1684: a frame that starts a group. -/
def Vst.key (media : Media) (s : Vst) (f : Frame) : Vst :=
  if media ≠ .video ∨ f.i.key then
    let s := { s with
      pending := if s.index > 0 then s.pending + ((if f.split then s.prev else f.i.pts) - s.lastKeyPts) else s.pending
      lastKeyPts := f.i.pts }
    if media = .video then
      match s.ks with
      | [] => { s with ok := false }
      | k :: ks =>
        { s with
          ks, firstKf := false, lastKey := s.index
          ok := s.ok && k.delta == s.index - s.lastKey && k.pts == f.i.pts && (s.firstKf || k.prevPts == s.prev) &&
            k.split == f.split && k.reset == f.reset }
    else s
  else s

/-- The loop of ngx_live_segmenter_validate_track_ctx (ngx_live_segmenter.c:1603-1699). -/
def validateLoop (media : Media) : List Frame → Vst → Vst
  | [], s => s
  | f :: fs, s =>
    let s := s.key media f
    let s := if f.split ∧ s.index > 0 then
        { s with splitCount := s.splitCount + 1, minSplit := if s.minSplit = invalid then s.prev else s.minSplit }
      else s
    validateLoop media fs { s with prev := f.i.pts, index := s.index + 1 }

/-- ngx_live_segmenter_validate_empty_track_ctx (ngx_live_segmenter.c:1497-1551), ngx_live_segmenter_validate_track_ctx
(ngx_live_segmenter.c:1554-1785), without the pointers to the data: there is no alert. -/
def validate (t : Track) : Bool :=
  match t.fs with
  | [] => t.frameCount == 0 && t.splitCount == 0 && t.minSplit == invalid && t.pending == 0 && t.ks.isEmpty && t.lastKey == 0
  | f :: fs =>
    let s := validateLoop t.media (f :: fs) { ks := t.ks }
    s.ok && t.startPts == f.i.pts && t.frameCount == s.index && t.splitCount == s.splitCount && t.minSplit == s.minSplit &&
      t.lastPts == s.prev && t.lastKeyPts == s.lastKeyPts && t.pending == s.pending && t.lastKey == s.lastKey && s.ks.isEmpty

/-- ngx_live_segmenter_validate_channel_ctx (ngx_live_segmenter.c:1788-1819): there is no alert. -/
def validateChan (ch : Chan) : Bool :=
  ch.c.nInactive == ch.ts.countP (·.state == .inactive) && ch.c.nPending == ch.ts.countP (·.state == .pending) &&
    ch.c.nReady == ch.ts.countP (·.state == .ready)

end Verif.Segmenter
