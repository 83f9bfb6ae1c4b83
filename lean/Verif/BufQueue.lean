import Verif.Basic

/-!
# Model of nginx-common/src/ngx_buf_queue.c

A node is identified by its address (`Nat`). The in-use list and the cache (`free`) are lists of
addresses; the C singly linked lists with `used_tail` are list append / cons.
The memory budget `*mem_left` is shared with other users of the same budget; their activity is
modelled by the `envTake` / `envGive` operations.
The large buffer allocator is abstract here (its own model is in `Verif/Lba.lean`): the address
it returns is an input of `get`.
Simplification: log calls and the NGX_DEBUG validation passes are dropped.
-/

namespace Verif.BufQueue

/-- `sizeof(ngx_buf_queue_node_t)` (ngx_buf_queue.h:33-35): one pointer. -/
def hdr : Nat := 8

/-- `ngx_buf_queue_t` (ngx_buf_queue.h:38-49) together with the budget `*mem_left` it points to.
`attached` is `mem_left != NULL`. -/
structure Q where
  allocSize : Nat
  used      : List Nat
  free      : List Nat
  freeLeft  : Nat
  nbuffers  : Nat
  memLeft   : Nat
  attached  : Bool
deriving Repr, DecidableEq

/-- `ngx_buf_queue_init` (ngx_buf_queue.c:6-33); fails when the buffer is not larger than the
node header. -/
def init (allocSize maxFree memLeft : Nat) : Res Q :=
  if allocSize ≤ hdr then .err
  else .ok { allocSize, used := [], free := [], freeLeft := maxFree, nbuffers := 0, memLeft,
             attached := true }

/-- `ngx_buf_queue_get` (ngx_buf_queue.c:134-174). `fresh` is what `ngx_lba_alloc` would return
(`none` = NULL). Result: the node handed out (`none` = NULL return) and the new state. Reading
`*mem_left` after detach is `ub`. -/
def get (q : Q) (fresh : Option Nat) : Res (Option Nat × Q) :=
  match q.free with
  | r :: rest =>
    .ok (some r, { q with free := rest, freeLeft := q.freeLeft + 1, used := q.used ++ [r] })
  | [] =>
    if q.attached = false then .ub
    else if q.memLeft < q.allocSize then .ok (none, q)
    else match fresh with
      | none => .ok (none, q)
      | some r =>
        .ok (some r, { q with memLeft := q.memLeft - q.allocSize, nbuffers := q.nbuffers + 1,
                              used := q.used ++ [r] })

/-- `limit >= ngx_buf_queue_start(cur) && limit < ngx_buf_queue_end(buf_queue, cur)`
(ngx_buf_queue.c:214-215, macros ngx_buf_queue.h:20-24). -/
def contains (allocSize cur limit : Nat) : Bool :=
  decide (cur + hdr ≤ limit) && decide (limit < cur + allocSize)

/-- Releasing one node (ngx_buf_queue.c:231-244): back to the allocator when the cache is full,
else to the cache. Second component: nodes given back to the allocator. -/
def release (q : Q) (cur : Nat) : Q × List Nat :=
  if q.freeLeft ≤ 0 then
    ({ q with memLeft := if q.attached then q.memLeft + q.allocSize else q.memLeft,
              nbuffers := q.nbuffers - 1 }, [cur])
  else ({ q with free := cur :: q.free, freeLeft := q.freeLeft - 1 }, [])

/-- The loop of `ngx_buf_queue_free` (ngx_buf_queue.c:212-247), on the list of in-use nodes. -/
def freeLoop (limit : Nat) : List Nat → Q → Q × List Nat
  | [], q => ({ q with used := [] }, [])
  | [cur], q => ({ q with used := [cur] }, [])
  | cur :: next :: rest, q =>
    if contains q.allocSize cur limit then ({ q with used := cur :: next :: rest }, [])
    else
      let r := release q cur
      let t := freeLoop limit (next :: rest) r.1
      (t.1, r.2 ++ t.2)

/-- `ngx_buf_queue_free` (ngx_buf_queue.c:177-252). Second component: nodes given back to the
allocator. An empty queue only logs. -/
def free (q : Q) (limit : Nat) : Q × List Nat :=
  match q.used with
  | [] => (q, [])
  | cur :: rest => freeLoop limit (cur :: rest) q

/-- `ngx_buf_queue_delete` (ngx_buf_queue.c:36-66). -/
def delete (q : Q) : Q × List Nat :=
  ({ q with free := [], freeLeft := q.freeLeft + q.free.length, used := [],
            memLeft := if q.attached then q.memLeft + q.allocSize * q.nbuffers else q.memLeft,
            nbuffers := 0 },
   q.free ++ q.used)

/-- `ngx_buf_queue_detach` (ngx_buf_queue.c:69-74). -/
def detach (q : Q) : Q := { q with attached := false }

/-- One call on the queue, or activity of another user of the same budget. -/
inductive Op where
  | get (fresh : Option Nat)
  | free (limit : Nat)
  | delete
  | envTake (n : Nat)
  | envGive (n : Nat)

/-- World state: the queue, the memory other users took from the budget, and the set of addresses
this queue has got from the allocator and not yet returned (bookkeeping of the allocator's side). -/
structure World where
  q     : Q
  other : Nat
  held  : List Nat

/-- One step. `ub` marks a broken contract: the allocator returning a buffer that overlaps a held
one is not possible (see `Op.ok`), and returning a buffer that is not held would be a double free. -/
def step (w : World) : Op → Res (Option Nat × World)
  | .get fresh =>
    match get w.q fresh with
    | .ok (r, q') =>
      let held' := if q'.nbuffers = w.q.nbuffers then w.held
        else match r with
          | some a => a :: w.held
          | none => w.held
      .ok (r, { w with q := q', held := held' })
    | .err => .err
    | .ub => .ub
  | .free limit =>
    let r := free w.q limit
    if r.2.all (w.held.contains ·) then
      .ok (none, { w with q := r.1, held := w.held.filter (fun a => !r.2.contains a) })
    else .ub
  | .delete =>
    let r := delete w.q
    if r.2.all (w.held.contains ·) then
      .ok (none, { w with q := r.1, held := w.held.filter (fun a => !r.2.contains a) })
    else .ub
  | .envTake n => .ok (none, { w with q := { w.q with memLeft := w.q.memLeft - n },
                                      other := w.other + n })
  | .envGive n => .ok (none, { w with q := { w.q with memLeft := w.q.memLeft + n },
                                      other := w.other - n })

/-- What the surroundings guarantee: the allocator returns buffers disjoint from the held ones,
other users take at most what is left and give back at most what they took. -/
def Op.ok (w : World) : Op → Prop
  | .get (some a) => ∀ b ∈ w.held, a + w.q.allocSize ≤ b ∨ b + w.q.allocSize ≤ a
  | .get none => True
  | .free _ => True
  | .delete => True
  | .envTake n => n ≤ w.q.memLeft
  | .envGive n => n ≤ w.other

end Verif.BufQueue
