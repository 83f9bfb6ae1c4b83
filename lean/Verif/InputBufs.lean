import Verif.BufQueue

/-!
# Model of nginx-live-module/src/ngx_live_input_bufs.c

The buffers that a track receives into, shared between the track, readers that hold locks, and tracks that were
linked to it (filler). The queue of buffers is the model of ngx_buf_queue.c (`Verif/BufQueue.lean`).

Simplifications: objects and locks come from a block pool that does not fail here, except that `lock` may fail by an
input; reference counts are `Nat` and do not wrap at 2^32; the queues of objects of the channel and of zombies are
left out (they only serve `detach` and JSON); the memory budget of the channel is an input of `get`.
-/

namespace Verif.InputBufs

open Verif.BufQueue (Q)

/-- `ngx_live_input_bufs_lock_t` (ngx_live_input_bufs.c:29-35); `id` is its address. -/
structure Lock where
  id : Nat
  seg : Nat
  ptr : Nat
  refs : Nat
deriving Repr, DecidableEq

/-- `ngx_live_input_bufs_t` (ngx_live_input_bufs.c:17-26). `got` is for the specification only: all buffers that were
ever handed out, in order. -/
structure Obj where
  q : Q
  locks : List Lock
  refCount : Nat
  lockCount : Nat
  minSeg : Nat
  minPtr : Nat
  noPartial : Bool
  got : List Nat
deriving Repr, DecidableEq

/-- What a reader holds: a lock. For the specification: `k` is the number of the buffer (in `got`) from which on the
reader uses data. -/
structure Hold where
  obj : Nat
  lock : Nat
  k : Nat
deriving Repr, DecidableEq

/-- All objects by address, the tracks with the object they point to (`ctx->input_bufs`), the locks that readers hold,
the buffers that were taken from the allocator and not given back, and the next unused address of an object and a lock. -/
structure World where
  heap : Nat → Option Obj
  tracks : List (Nat × Nat)
  holds : List Hold
  held : List Nat
  nextObj : Nat
  nextLock : Nat

/-- Replaces an object; `none` frees it. -/
def World.put (w : World) (a : Nat) (o : Option Obj) : World :=
  { w with heap := fun x => if x = a then o else w.heap x }

/-- The allocator gets buffers back; a buffer that it did not hand out is undefined behaviour. -/
def World.giveBack (w : World) (out : List Nat) : Res World :=
  if out.all (w.held.contains ·) then .ok { w with held := w.held.filter (fun a => !out.contains a) } else .ub

/-- The object of a track. -/
def World.track (w : World) (t : Nat) : Option Nat := (w.tracks.find? (fun p => p.1 = t)).map (·.2)

/-- `ngx_live_input_bufs_create` (ngx_live_input_bufs.c:152-190). -/
def create (size maxFree : Nat) (w : World) : Res (Nat × World) :=
  match BufQueue.init size maxFree 0 with
  | .ok q => .ok (w.nextObj,
      { w.put w.nextObj (some { q := q, locks := [], refCount := 1, lockCount := 0, minSeg := 0, minPtr := 0,
                                noPartial := false, got := [] }) with nextObj := w.nextObj + 1 })
  | .err => .err
  | .ub => .ub

/-- The pointer up to which buffers are freed (ngx_live_input_bufs.c:201-221). -/
def limit (o : Obj) : Option Nat :=
  if o.noPartial then none
  else if o.minSeg ≤ 0 then none
  else match o.locks with
    | [] => some o.minPtr
    | l :: _ => if l.seg < o.minSeg then some l.ptr else some o.minPtr

/-- `ngx_live_input_bufs_free_bufs` (ngx_live_input_bufs.c:193-222). -/
def freeBufs (w : World) (a : Nat) (o : Obj) : Res World :=
  match limit o with
  | none => .ok (w.put a (some o))
  | some p =>
    let r := BufQueue.free o.q p
    (w.put a (some { o with q := r.1 })).giveBack r.2

/-- `ngx_live_input_bufs_free` (ngx_live_input_bufs.c:225-252), on an object that was changed to `o`. -/
def free (w : World) (a : Nat) (o : Obj) : Res World :=
  if o.refCount ≤ 0 then .ok (w.put a (some o))
  else
    let o1 := { o with refCount := o.refCount - 1 }
    if o1.refCount > 0 then freeBufs w a o1
    else if ¬ o1.locks.isEmpty then .ok (w.put a (some o1))
    else
      let r := BufQueue.delete o1.q
      (w.put a none).giveBack r.2

/-- `ngx_live_input_bufs_get` (ngx_live_input_bufs.c:255-284). `mem` is what is left of the budget of the channel,
`fresh` what the allocator returns. -/
def get (w : World) (t mem : Nat) (fresh : Option Nat) : Res (Option Nat × World) :=
  match w.track t with
  | none => .ub
  | some a => match w.heap a with
    | none => .ub
    | some o => match BufQueue.get { o.q with memLeft := mem } fresh with
      | .ok (some b, q') => .ok (some b, { w.put a (some { o with q := q', got := o.got ++ [b] }) with
          held := if o.q.free.isEmpty then b :: w.held else w.held })
      | .ok (none, q') => .ok (none, w.put a (some { o with q := q' }))
      | .err => .err
      | .ub => .ub

/-- The search of `ngx_live_input_bufs_lock` (ngx_live_input_bufs.c:353-385), which walks the locks from the last to
the first; `rev` is the part of the queue not visited, reversed, `after` the part visited. `some (some l, _)`: the lock
`l` is used again; `some (none, ls)`: the queue with the new lock in its place; `none`: the pointer does not match. -/
def place (noPartial : Bool) (seg ptr : Nat) (new : Lock) : List Lock → List Lock → Option (Option Lock × List Lock)
  | [], after => some (none, new :: after)
  | l :: rev, after =>
    if noPartial then some (some l, rev.reverse ++ { l with refs := l.refs + 1 } :: after)
    else if seg < l.seg then place noPartial seg ptr new rev (l :: after)
    else if seg > l.seg then some (none, rev.reverse ++ l :: new :: after)
    else if l.ptr ≠ ptr then none
    else some (some l, rev.reverse ++ { l with refs := l.refs + 1 } :: after)

/-- `ngx_live_input_bufs_lock` (ngx_live_input_bufs.c:337-407); `alloc` is false when the pool fails. The result is the
address of the object and of the lock. -/
def lock (w : World) (t seg ptr : Nat) (alloc : Bool) : Res (Option (Nat × Nat) × World) :=
  match w.track t with
  | none => .ub
  | some a => match w.heap a with
    | none => .ub
    | some o => match place o.noPartial seg ptr { id := w.nextLock, seg, ptr, refs := 1 } o.locks.reverse [] with
      | none => .ok (none, w)
      | some (some l, ls) => .ok (some (a, l.id), w.put a (some { o with locks := ls, lockCount := o.lockCount + 1 }))
      | some (none, ls) =>
        if alloc then
          .ok (some (a, w.nextLock), { w.put a (some { o with locks := ls, refCount := o.refCount + 1,
                                                              lockCount := o.lockCount + 1 }) with nextLock := w.nextLock + 1 })
        else .ok (none, w)

/-- `ngx_live_input_bufs_unlock` (ngx_live_input_bufs.c:410-436). A lock that was freed is undefined behaviour. -/
def unlock (w : World) (a id : Nat) : Res World :=
  match w.heap a with
  | none => .ub
  | some o => match o.locks.find? (fun l => l.id = id) with
    | none => .ub
    | some l =>
      if l.refs ≤ 0 then .ok w
      else
        let o1 := { o with lockCount := o.lockCount - 1 }
        if l.refs - 1 > 0 then
          .ok (w.put a (some { o1 with locks := o1.locks.map (fun x => if x.id = id then { x with refs := x.refs - 1 } else x) }))
        else free w a { o1 with locks := o1.locks.filter (fun x => x.id ≠ id) }

/-- `ngx_live_input_bufs_set_min_used` (ngx_live_input_bufs.c:463-482). -/
def setMinUsed (w : World) (t seg ptr : Nat) : Res World :=
  match w.track t with
  | none => .ub
  | some a => match w.heap a with
    | none => .ub
    | some o => freeBufs w a { o with minSeg := seg, minPtr := ptr }

/-- `ngx_live_input_bufs_link` (ngx_live_input_bufs.c:485-503). -/
def link (w : World) (dst src : Nat) : Res World :=
  match w.track src, w.track dst with
  | some a, some b => match w.heap b with
    | none => .ub
    | some o => match free w b o with
      | .ok w1 => match w1.heap a with
        | none => .ub
        | some s => .ok { w1.put a (some { s with refCount := s.refCount + 1, noPartial := true }) with
                          tracks := w1.tracks.map (fun p => if p.1 = dst then (dst, a) else p) }
      | .err => .err
      | .ub => .ub
  | _, _ => .ub

/-- `ngx_live_input_bufs_track_init` (ngx_live_input_bufs.c:554-567). -/
def trackInit (w : World) (size maxFree t : Nat) : Res World :=
  match create size maxFree w with
  | .ok (a, w1) => .ok { w1 with tracks := w1.tracks ++ [(t, a)] }
  | .err => .err
  | .ub => .ub

/-- `ngx_live_input_bufs_track_free` (ngx_live_input_bufs.c:570-587). -/
def trackFree (w : World) (t : Nat) : Res World :=
  match w.track t with
  | none => .ok w
  | some a => match w.heap a with
    | none => .ub
    | some o => match free w a { o with q := BufQueue.detach o.q } with
      | .ok w1 => .ok { w1 with tracks := w1.tracks.filter (fun p => p.1 ≠ t) }
      | .err => .err
      | .ub => .ub

/-- What `ngx_live_input_bufs_channel_free` (ngx_live_input_bufs.c:526-551) does to one object of the channel. -/
def channelFree (w : World) (a : Nat) : Res World :=
  match w.heap a with
  | none => .ok w
  | some o => .ok (w.put a (some { o with q := BufQueue.detach o.q }))

/-- The calls. `k` in `lock` is for the specification (see `Hold`); `unlock i` is for the hold number `i`. -/
inductive Op where
  | trackInit (t : Nat)
  | trackFree (t : Nat)
  | channelFree (a : Nat)
  | get (t mem : Nat) (fresh : Option Nat)
  | lock (t seg ptr : Nat) (alloc : Bool) (k : Nat)
  | unlock (i : Nat)
  | setMinUsed (t seg ptr : Nat)
  | link (dst src : Nat)

/-- One call; readers note what they hold. -/
def step (size maxFree : Nat) (w : World) : Op → Res World
  | .trackInit t => trackInit w size maxFree t
  | .trackFree t => trackFree w t
  | .channelFree a => channelFree w a
  | .get t mem fresh => (get w t mem fresh).map (·.2)
  | .lock t seg ptr alloc k => match lock w t seg ptr alloc with
    | .ok (some (a, l), w1) => .ok { w1 with holds := w1.holds ++ [{ obj := a, lock := l, k }] }
    | .ok (none, w1) => .ok w1
    | .err => .err
    | .ub => .ub
  | .unlock i => match w.holds[i]? with
    | none => .ok w
    | some h => match unlock w h.obj h.lock with
      | .ok w1 => .ok { w1 with holds := w1.holds.eraseIdx i }
      | .err => .err
      | .ub => .ub
  | .setMinUsed t seg ptr => setMinUsed w t seg ptr
  | .link dst src => link w dst src

/-- No tracks, nothing allocated. -/
def empty : World := { heap := fun _ => none, tracks := [], holds := [], held := [], nextObj := 0, nextLock := 0 }

end Verif.InputBufs
