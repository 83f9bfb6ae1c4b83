import Verif.Basic
import Verif.SegmentList

/-!
# Model of nginx-live-module/src/ngx_live_segment_index.c and of the snapshots of persist/ngx_live_persist_index.c and
persist/ngx_live_persist_snap_frames.c

The queue of all indexes is a list, the queues of pending and of done ones are lists of their keys. The red-black tree is any
binary tree over the indexes (`SegmentList.Tree`); `treeGet` and `treeFirst` are the lookups in it, and `SegmentIndexInv.lean`
shows that they give what `get` and `first` give, which the rest of the model uses. Everything that the outside can see is put
in a log. A snapshot of frames has a number, so that closing it twice is `ub`. Not modelled: logging, failed allocations, what
is written to the files, and the choice between index and delta file.
-/

namespace Verif.SegmentIndex

open Verif.SegmentList (Tree)

/-- `ngx_live_segment_persist_e` (ngx_live_segment_index.c:22-26). -/
inductive Persist
  | none | ok | error
deriving DecidableEq, Repr

/-- What the acks of a track depend on (ngx_live_track_t): its id, the number of the connection (0 when there is none), and the
next frame. Also `ngx_live_persist_snap_frames_track_t` (ngx_live_persist_snap_frames.c:6-10). -/
structure Track where
  id : Nat
  conn : Nat
  frame : Nat
deriving DecidableEq, Repr

/-- The frames of all tracks, and the last track id (ngx_live_persist_snap_frames.c:13-16, `max_track_id`). -/
structure Table where
  tracks : List Track
  maxId : Nat
deriving DecidableEq, Repr

/-- `ngx_live_persist_snap_frames_t` (ngx_live_persist_snap_frames.c:13-16): a number, `scope.max_index`, and the frames, when they
were taken. -/
structure FSnap where
  id : Nat
  max : Nat
  table : Option Table
deriving DecidableEq, Repr

/-- `ngx_live_persist_snap_index_t` (ngx_live_persist.h:98-102). With frames only, `fs` is the snapshot. -/
structure Snap where
  max : Nat
  fs : FSnap
deriving DecidableEq, Repr

/-- `ngx_live_segment_index_s` (ngx_live_segment_index.c:29-38); `locks` is the length of the cleanup queue. -/
structure Idx where
  key : Nat
  persist : Persist
  snap : Option Snap
  freed : Bool
  locks : Nat
deriving DecidableEq, Repr

/-- Which snapshots are made (ngx_live_persist_core.c:424-450). -/
inductive Mode
  | off | frames | index
deriving DecidableEq, Repr

/-- Why a segment leaves memory: it is in no timeline when it is ready, by the retention rule, for lack of memory, because it
left the timelines. -/
inductive Why
  | unused | retention | memory | expired
deriving DecidableEq, Repr

/-- An ack: track, connection, first frame that is not acked. -/
structure Ack where
  track : Nat
  conn : Nat
  frame : Nat
deriving DecidableEq, Repr

/-- What the outside sees: calls (`ready`, `persisted`) and effects. -/
inductive Ev
  /-- the segment is complete, and is in a timeline or not; the frames of the tracks then -/
  | ready (k : Nat) (is : Bool) (tb : Table)
  /-- the outcome of writing the segments of a range -/
  | persisted (a b : Nat) (ok : Bool)
  /-- the segment is removed from the cache -/
  | dropped (k : Nat) (saved : Bool) (why : Why)
  | truncate (k : Nat)
  /-- acks for a snapshot -/
  | acked (fs : FSnap) (acks : List Ack)
  /-- acks without a snapshot -/
  | ackAll (acks : List Ack)
deriving DecidableEq, Repr

/-- `ngx_live_segment_index_channel_ctx_t` (ngx_live_segment_index.c:41-49), `ngx_live_persist_index_channel_ctx_t`
(ngx_live_persist_index.c:16-23), and the fields of the channel. `made` is how many snapshots there were, `closed` those that are
closed. -/
structure St where
  mode : Mode
  force : Nat
  all : List Idx
  pending : List Nat
  done : List Nat
  last : Option Nat
  next : Nat
  minIdx : Nat
  snapshots : Nat
  made : Nat
  closed : List Nat
  write : Option (Nat × FSnap)
  pend : Option Snap
  tracks : List Track
  lastTrack : Nat
  log : List Ev
deriving DecidableEq, Repr

/-- A channel whose next segment has an index. -/
def init (mode : Mode) (force next : Nat) : St :=
  { mode, force, all := [], pending := [], done := [], last := none, next, minIdx := 0, snapshots := 0, made := 0, closed := [],
    write := none, pend := none, tracks := [], lastTrack := 0, log := [] }

def emit (s : St) (e : Ev) : St := { s with log := s.log ++ [e] }

/-! ## Lookups -/

/-- `ngx_live_segment_index_get` (ngx_live_segment_index.c:343-376). -/
def treeGet (all : List Idx) (k : Nat) : Tree → Res (Option Idx)
  | .leaf => .ok none
  | .node l i r => match all[i]? with
    | none => .ub
    | some x =>
      if k < x.key then treeGet all k l
      else if k > x.key then treeGet all k r
      else .ok (if x.freed then none else some x)

/-- `ngx_live_segment_index_get_first` (ngx_live_segment_index.c:379-432): the position. -/
def treeFirst (all : List Idx) (k : Nat) : Tree → Res (Option Nat)
  | .leaf => .ok none
  | .node l i r => match all[i]? with
    | none => .ub
    | some x =>
      if k < x.key then
        match l with
        | .leaf => .ok (some i)
        | _ => treeFirst all k l
      else if k > x.key then
        match r with
        | .leaf => .ok (if i + 1 < all.length then some (i + 1) else none)
        | _ => treeFirst all k r
      else .ok (some i)

/-- The index of a segment. -/
def find (all : List Idx) (k : Nat) : Option Idx := all.find? fun x => decide (x.key = k)

/-- What `ngx_live_segment_index_get` gives. -/
def get (all : List Idx) (k : Nat) : Option Idx := (find all k).filter fun x => !x.freed

/-- What `ngx_live_segment_index_get_first` gives: the indexes from there on. -/
def first (all : List Idx) (k : Nat) : List Idx := all.dropWhile fun x => decide (x.key < k)

def setIdx (all : List Idx) (x : Idx) : List Idx := all.map fun y => if y.key = x.key then x else y

/-! ## Snapshots -/

/-- The loop of `ngx_live_persist_snap_frames_close` (ngx_live_persist_snap_frames.c:61-88). -/
def ackLoop (maxId : Nat) : List Track → List Track → List Ack
  | [], _ => []
  | t :: ts, tf =>
    if t.id > maxId ∨ t.conn = 0 then ackLoop maxId ts tf
    else match tf.dropWhile fun f => decide (f.id ≠ t.id) with
      | [] => []
      | f :: rest => (if f.conn = t.conn then [⟨t.id, t.conn, f.frame⟩] else []) ++ ackLoop maxId ts (f :: rest)

/-- `ngx_live_persist_snap_close_action_e` (ngx_live_persist.h:64-68). -/
inductive Act
  | free | ack | write
deriving DecidableEq, Repr

/-- The acks that are sent when a snapshot of frames is closed. -/
def ackEv (s : St) (fs : FSnap) : List Ev :=
  match fs.table with
  | none => []
  | some tb => [.acked fs (ackLoop tb.maxId s.tracks tb.tracks)]

/-- `ngx_live_persist_snap_frames_close` (ngx_live_persist_snap_frames.c:37-93) and `ngx_live_persist_snap_frames_free`
(ngx_live_persist_snap_frames.c:19-34). -/
def closeFrames (s : St) (fs : FSnap) (a : Act) : Res St :=
  if fs.id ∈ s.closed then .ub
  else .ok { s with
    log := s.log ++ (if a = .free then [] else ackEv s fs)
    snapshots := s.snapshots - 1
    closed := fs.id :: s.closed }

/-- `ngx_live_persist_index_snap_close` (ngx_live_persist_index.c:160-270). `io` is whether the write of a file can be started. -/
def closeIndex (s : St) (sn : Snap) (a : Act) (io : Bool) : Res St :=
  match a with
  | .free => closeFrames s sn.fs .free
  | .ack => match s.pend with
    | some p => do
      let s ← closeFrames s p.fs .free
      .ok { s with pend := some { p with fs := sn.fs } }
    | none => match s.write with
      | some (m, f) => do
        let s ← closeFrames s f .free
        .ok { s with write := some (m, sn.fs) }
      | none => closeFrames s sn.fs .ack
  | .write => match s.write with
    | some _ => do
      let s ← match s.pend with
        | some p => closeFrames s p.fs .free
        | none => .ok s
      .ok { s with pend := some sn }
    | none =>
      if sn.max < s.minIdx then closeFrames s sn.fs .write
      else if io then .ok { s with write := some (sn.max, sn.fs) }
      else closeFrames s sn.fs .write

/-- The close function of a snapshot. -/
def closeSnap (s : St) (sn : Snap) (a : Act) (io : Bool) : Res St :=
  match s.mode with
  | .index => closeIndex s sn a io
  | _ => closeFrames s sn.fs a

/-- `ngx_live_persist_index_write_complete` (ngx_live_persist_index.c:684-737); the outcome of the write has no influence on the
acks. -/
def written (s : St) (io : Bool) : Res St :=
  match s.write with
  | none => .ub
  | some (_, f) => do
    let s ← closeFrames s f .ack
    let s := { s with write := none }
    match s.pend with
    | none => .ok s
    | some p => closeIndex { s with pend := none } p .write io

/-! ## Freeing -/

/-- The end of `ngx_live_segment_index_free` (ngx_live_segment_index.c:126-138). -/
def removeIdx (s : St) (k : Nat) : St :=
  { s with all := s.all.filter fun y => decide (y.key ≠ k), pending := s.pending.filter fun j => decide (j ≠ k),
           done := s.done.filter fun j => decide (j ≠ k) }

/-- `ngx_live_segment_index_free` (ngx_live_segment_index.c:98-139), when `no_free` is not set. The second result is the new value of
`truncate`. -/
def free (s : St) (why : Why) (k : Nat) (tr : Nat) : Res (St × Nat) :=
  match find s.all k with
  | none => .ub
  | some x => do
    let s1 := if x.freed then s else emit { s with all := setIdx s.all { x with freed := true } } (.dropped k (decide (x.persist = .ok)) why)
    let tr := if x.freed ∨ x.persist = .ok then tr else k
    let s2 ← match x.snap with
      | none => .ok s1
      | some sn => closeSnap { s1 with all := setIdx s1.all { x with freed := true, snap := none } } sn .ack false
    .ok (if x.locks ≠ 0 then s2 else removeIdx s2 k, tr)

/-- Freeing some indexes in a row. -/
def freeKeys (why : Why) : List Nat → St → Nat → Res (St × Nat)
  | [], s, tr => .ok (s, tr)
  | k :: ks, s, tr => do
    let (s, tr) ← free s why k tr
    freeKeys why ks s tr

/-- The call of `ngx_live_timelines_truncate` (ngx_live_segment_index.c:180-186 and 654-660); 0 stands for no index. -/
def truncated (s : St) (tr : Nat) : St := if tr ≠ 0 then emit s (.truncate tr) else s

/-- `ngx_live_segment_index_free_non_forced` (ngx_live_segment_index.c:142-187). -/
def freeNonForced (s : St) (noFree : Bool) : Res St :=
  match s.last with
  | none => .ok s
  | some l =>
    if l < s.force ∨ noFree then .ok s
    else do
      let (s, tr) ← freeKeys .retention (s.done.takeWhile fun k => decide (k ≤ l - s.force)) s 0
      .ok (truncated s tr)

/-! ## Creation -/

/-- `ngx_live_segment_index_create` (ngx_live_segment_index.c:190-222). -/
def create (s : St) (k : Nat) : St :=
  { s with all := s.all ++ [{ key := k, persist := .none, snap := none, freed := false, locks := 0 }], pending := s.pending ++ [k] }

/-- `ngx_live_segment_index_create_snap` (ngx_live_segment_index.c:225-254). -/
def createSnap (s : St) : Res St :=
  match s.all.getLast? with
  | none => .ub
  | some x =>
    if x.snap.isSome then .err
    else if s.mode = .off then .ok s
    else .ok { s with all := setIdx s.all { x with snap := some ⟨x.key, ⟨s.made, x.key, none⟩⟩ }, made := s.made + 1, snapshots := s.snapshots + 1 }

/-- The frames of the tracks, as `ngx_live_persist_snap_frames_update` (ngx_live_persist_snap_frames.c:96-136) takes them. -/
def table (s : St) : Table := { tracks := s.tracks, maxId := s.lastTrack }

/-- `ngx_live_channel_ack_frames` (ngx_live_channel.c:400-418). -/
def allAcks (ts : List Track) : List Ack := (ts.filter fun t => decide (t.conn ≠ 0)).map fun t => ⟨t.id, t.conn, t.frame⟩

/-- The update of the snapshot or the freeing of the index (ngx_live_segment_index.c:290-304). -/
def readyIdx (s : St) (x : Idx) (is : Bool) : Res St :=
  if is = false then (free s .unused x.key 0).map (·.1)
  else match x.snap with
    | none => .ok s
    | some sn => .ok { s with all := setIdx s.all { x with snap := some { sn with fs := { sn.fs with table := some (table s) } } } }

/-- Whether the segment was completed before (ngx_live_segment_index.c:278-286). -/
def late : Option Nat → Nat → Bool
  | none, _ => false
  | some l, k => decide (l ≥ k)

/-- `ngx_live_segment_index_ready` (ngx_live_segment_index.c:257-321), and the step to the next segment, which its callers do
afterwards. -/
def ready (s : St) (is : Bool) : Res St :=
  match get s.all s.next with
  | none => .err
  | some x =>
    if late s.last x.key then .err
    else do
      let s := emit { s with last := some x.key, next := s.next + 1 } (.ready x.key is (table s))
      let s ← readyIdx s x is
      let s ← freeNonForced s false
      .ok (if s.snapshots = 0 then emit s (.ackAll (allAcks s.tracks)) else s)

/-! ## Outcome of writes -/

/-- The position before which done indexes are put (ngx_live_segment_index.c:435-453). -/
def insertDone (done moved : List Nat) (k : Nat) : List Nat :=
  (done.reverse.dropWhile fun j => decide (k ≤ j)).reverse ++ moved ++ (done.reverse.takeWhile fun j => decide (k ≤ j)).reverse

/-- The snapshots in the loop of `ngx_live_segment_index_persisted` (ngx_live_segment_index.c:526-533): all but the last are
closed. -/
def lastSnap : List Idx → Option Snap → St → Res (Option Snap × St)
  | [], sn, s => .ok (sn, s)
  | x :: xs, sn, s => match x.snap with
    | none => lastSnap xs sn s
    | some sn' => do
      let s ← match sn with
        | none => .ok s
        | some sn => closeSnap s sn .free false
      lastSnap xs (some sn') s

/-- The end of `ngx_live_segment_index_persisted` (ngx_live_segment_index.c:546-575). -/
def handOver (s : St) (sn : Snap) (prev : Option Nat) (b : Nat) (ok io : Bool) : Res St :=
  if ok = false ∧ ¬ sn.max ≥ b then closeSnap s sn .ack io
  else match prev with
    | none => closeSnap s sn .write io
    | some p => match find s.all p with
      | none => .ub
      | some y => do
        let s ← match y.snap with
          | none => .ok s
          | some sn' => closeSnap s sn' .free io
        .ok { s with all := setIdx s.all { y with snap := some sn } }

/-- `ngx_live_segment_index_persisted` (ngx_live_segment_index.c:456-576). -/
def persisted (s : St) (a b : Nat) (ok noFree io : Bool) : Res St :=
  let s := emit s (.persisted a b ok)
  match first s.all a with
  | [] => .ok s
  | x :: rest =>
    if x.key ≥ b then .ok s
    else if x.persist ≠ .none then .ok s
    else
      let range := (x :: rest).takeWhile fun y => decide (y.key < b)
      let keys := range.map (·.key)
      if keys.all (fun k => decide (k ∈ s.pending)) = false then .ub
      else do
        let prev := (s.pending.takeWhile fun k => decide (k ≠ x.key)).getLast?
        let (sn, s) ← lastSnap range none s
        let s := { s with
          all := s.all.map fun y => if y.key ∈ keys then { y with persist := if ok then .ok else .error, snap := none } else y
          pending := s.pending.filter fun k => decide (k ∉ keys)
          done := insertDone s.done keys x.key }
        let s ← freeNonForced s noFree
        match sn with
        | none => .ok s
        | some sn => handOver s sn prev b ok io

/-! ## Locks, lack of memory, end of the timelines -/

/-- `ngx_live_segment_index_cleanup_add` (ngx_live_segment_index.c:729-759). -/
def lock (s : St) (k : Nat) : Res St :=
  match get s.all k with
  | none => .err
  | some x => .ok { s with all := setIdx s.all { x with locks := x.locks + 1 } }

/-- The end of `ngx_live_segment_index_unlock` (ngx_live_segment_index.c:715-726). -/
def unlock (s : St) (k : Nat) : Res St :=
  match find s.all k with
  | none => .ub
  | some x => if x.locks = 0 then .ub else .ok { s with all := setIdx s.all { x with locks := x.locks - 1 } }

/-- The cleanup handlers of an index (ngx_live_segment_index.c:579-596): writes that are cancelled, with their ranges, while
`no_free` is set. -/
def cancels : List (Nat × Nat × Bool) → St → Res St
  | [], s => .ok s
  | (a, b, io) :: cs, s => do
    let s ← persisted s a b false true io
    cancels cs s

/-- The loop of `ngx_live_segment_index_watermark` (ngx_live_segment_index.c:615-652). There is one item for each index that is freed
before there is memory again: what its handlers cancel. After them the cleanup queue is empty (otherwise the loop ends with an
alert). -/
def wmLoop : List (List (Nat × Nat × Bool)) → St → Nat → Res (St × Nat)
  | [], s, tr => .ok (s, tr)
  | cs :: css, s, tr => match s.all with
    | [] => .ok (s, tr)
    | x :: _ =>
      if x.key ≥ s.next then .ok (s, tr)
      else do
        let s ← cancels cs s
        match find s.all x.key with
        | none => .ub
        | some y => do
          let (s, tr) ← free { s with all := setIdx s.all { y with locks := 0 } } .memory x.key tr
          wmLoop css s tr

/-- `ngx_live_segment_index_watermark` (ngx_live_segment_index.c:599-663). -/
def watermark (s : St) (script : List (List (Nat × Nat × Bool))) : Res St := do
  let (s, tr) ← wmLoop script s 0
  .ok (truncated s tr)

/-- `ngx_live_segment_index_segment_free` (ngx_live_segment_index.c:666-694), and the new lowest index of the channel
(ngx_live_timeline.c:1697). -/
def segmentFree (s : St) (min : Nat) : Res St :=
  (freeKeys .expired (((s.all.takeWhile fun x => decide (x.key < min))).map (·.key)) { s with minIdx := min } 0).map (·.1)

/-- The loop of `ngx_live_segment_index_channel_free` (ngx_live_segment_index.c:802-820). The pointer to the snapshot is not reset
after it is closed. -/
def chanLoop : List (Nat × List (Nat × Nat × Bool)) → St → Res St
  | [], s => .ok s
  | (k, cs) :: css, s => do
    let s ← cancels cs s
    match find s.all k with
    | none => .ub
    | some y => do
      let s ← match y.snap with
        | none => .ok s
        | some sn => closeSnap s sn .free false
      chanLoop css s

/-- `ngx_live_persist_index_channel_free` (ngx_live_persist_index.c:836-869). -/
def persistFree (s : St) : Res St := do
  let s ← match s.write with
    | none => .ok s
    | some (_, f) => closeFrames s f .free
  match s.pend with
  | none => .ok s
  | some p => closeFrames s p.fs .free

/-- The end of a channel: for each index what its handlers cancel. -/
def channelFree (s : St) (script : Nat → List (Nat × Nat × Bool)) : Res St := do
  let s ← chanLoop (s.all.map fun x => (x.key, script x.key)) s
  persistFree s

end Verif.SegmentIndex
