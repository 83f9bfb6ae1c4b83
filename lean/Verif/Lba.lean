import Verif.Basic

/-!
# Model of nginx-common/src/ngx_lba.c (large buffer allocator)

Blocks are identified by their (mmap) address, buffers by (block address, index in the block).
The queue of blocks of a bin is a list. The queue of active bins is modelled at pointer level
(`nx`, `pv`), because the code tests `bin->queue.next == NULL`, and nginx's `ngx_queue_remove`
clears the pointers of the removed element only in builds with NGX_DEBUG (nginx core,
src/core/ngx_queue.h). The flag `debug` selects the build.
`mmap` is an input: the address of the new block, or `none` when it fails.
Simplifications: `NGX_LBA_SKIP` is off; `munmap` does not fail; log calls are dropped.
-/

namespace Verif.Lba

/-- `NGX_LBA_BLOCK_SIZE` (ngx_lba.c:18). -/
def blockSize : Nat := 512 * 1024

/-- `sizeof(ngx_lba_block_header_t)` (ngx_lba.c:21-27): 16 + 8 + 8 + 4 + 4. -/
def blockHdr : Nat := 40

/-- `sizeof(ngx_lba_buf_header_t)` (ngx_lba.c:30-32). -/
def bufHdr : Nat := 8

/-- `ngx_lba_block_header_t` (ngx_lba.c:21-27). `free` is the linked list of freed buffers, by
index in the block. -/
structure Block where
  binIndex : Nat
  free     : List Nat
  inited   : Nat
  used     : Nat
deriving Repr, DecidableEq

/-- `ngx_lba_t` (ngx_lba.c:41-49). `nx k`, `pv k` are `bins[k].queue.next/prev` (a bin number, or
`none` for NULL); bin `binCount` is the sentinel of the active queue (ngx_lba.c:360-365).
`bins k` is `bins[k].blocks`; `blk` gives the header of each block. -/
structure Lba where
  debug     : Bool
  binCount  : Nat
  blockBufs : Nat
  bufSize   : Nat
  nx        : Nat → Option Nat
  pv        : Nat → Option Nat
  bins      : Nat → List Nat
  blk       : Nat → Block

/-- Assignment to one element of an array. -/
def upd {α : Type} (f : Nat → α) (k : Nat) (v : α) : Nat → α :=
  fun j => if j = k then v else f j

/-- A buffer: block address and index. -/
abbrev Buf := Nat × Nat

/-- The address returned for buffer `i` of a block (ngx_lba.c:123-125, 166-171): after the block
header, `i` buffers of `buf_size` bytes, then the buffer header. -/
def bufAddr (bufSize : Nat) (b : Buf) : Nat := b.1 + blockHdr + bufSize * b.2 + bufHdr

/-- `ngx_lba_create` (ngx_lba.c:314-368). `none` = NULL. -/
def create (debug : Bool) (userSize binCountReq : Nat) : Option Lba :=
  if userSize < 8 then none
  else
    let bufSize := userSize + bufHdr
    let blockBufs := (blockSize - blockHdr) / bufSize
    if blockBufs ≤ 0 then none
    else
      let binCount := if binCountReq > blockBufs then blockBufs else binCountReq
      some { debug, binCount, blockBufs, bufSize,
             nx := fun k => if k = binCount then some binCount else none,
             pv := fun k => if k = binCount then some binCount else none,
             bins := fun _ => [],
             blk := fun _ => { binIndex := 0, free := [], inited := 0, used := 0 } }

/-- `lba->initial_bin` (ngx_lba.c:350). -/
def initialBin (l : Lba) : Nat := l.binCount / l.blockBufs

/-- `ngx_queue_insert_head(h, x)` = `ngx_queue_insert_after(h, x)` of nginx core, on bin queues:
`x->next = h->next; x->next->prev = x; x->prev = h; h->next = x`. A NULL `h->next` is `ub`. -/
def insertAfter (l : Lba) (h x : Nat) : Res Lba :=
  match l.nx h with
  | none => .ub
  | some n => .ok { l with nx := upd (upd l.nx x (some n)) h (some x)
                           pv := upd (upd l.pv n (some x)) x (some h) }

/-- `ngx_queue_insert_tail(h, x)` = `ngx_queue_insert_before(h, x)` (ngx_lba.c:14):
`x->prev = h->prev; x->prev->next = x; x->next = h; h->prev = x`. -/
def insertBefore (l : Lba) (h x : Nat) : Res Lba :=
  match l.pv h with
  | none => .ub
  | some p => .ok { l with pv := upd (upd l.pv x (some p)) h (some x)
                           nx := upd (upd l.nx p (some x)) x (some h) }

/-- `ngx_queue_remove(x)` of nginx core: unlink; with NGX_DEBUG also clear the links of `x`. -/
def remove (l : Lba) (x : Nat) : Res Lba :=
  match l.nx x, l.pv x with
  | some n, some p =>
    let pv1 := upd l.pv n (some p)
    let nx1 := upd l.nx p (some n)
    if l.debug then .ok { l with nx := upd nx1 x none, pv := upd pv1 x none }
    else .ok { l with nx := nx1, pv := pv1 }
  | _, _ => .ub

/-- `ngx_lba_block_alloc` (ngx_lba.c:92-131); `fresh` is the result of mmap. -/
def blockAlloc (l : Lba) (fresh : Option Nat) : Res (Option Buf × Lba) :=
  match fresh with
  | none => .ok (none, l)
  | some b =>
    let bi := initialBin l
    let l1 := { l with blk := upd l.blk b { binIndex := bi, free := [], inited := 1, used := 1 }
                       bins := upd l.bins bi (l.bins bi ++ [b]) }
    if l1.nx bi = none then (insertAfter l1 l1.binCount bi).map fun l2 => (some (b, 0), l2)
    else .ok (some (b, 0), l1)

/-- `ngx_lba_block_free` (ngx_lba.c:134-148). -/
def blockFree (l : Lba) (b : Nat) : Res Lba :=
  let bi := (l.blk b).binIndex
  let l1 := { l with bins := upd l.bins bi ((l.bins bi).erase b) }
  if l1.bins bi = [] then remove l1 bi else .ok l1

/-- The bin changes shared by alloc and free: ngx_lba.c:191-196 and 239-244. -/
def moveBlock (l : Lba) (b new : Nat) : Lba :=
  let old := (l.blk b).binIndex
  let bins1 := upd l.bins old ((l.bins old).erase b)
  { l with bins := upd bins1 new (bins1 new ++ [b])
           blk := upd l.blk b { l.blk b with binIndex := new } }

/-- Choice of the buffer in `ngx_lba_block_alloc_buf` (ngx_lba.c:160-180): a freed buffer, else the
next one never used. -/
def pickBuf (blockBufs : Nat) (k : Block) : Option (Nat × Block) :=
  match k.free with
  | i :: rest => some (i, { k with free := rest })
  | [] => if k.inited < blockBufs then some (k.inited, { k with inited := k.inited + 1 }) else none

/-- `ngx_lba_block_alloc_buf` (ngx_lba.c:151-207). `none` = NULL (block has no free buffer). -/
def allocBuf (l : Lba) (b : Nat) : Res (Option Buf × Lba) :=
  let k := l.blk b
  match pickBuf l.blockBufs k with
  | none => .ok (none, l)
  | some (i, k1) =>
    let l1 := { l with blk := upd l.blk b { k1 with used := k1.used + 1 } }
    let old := k.binIndex
    let new := (k.used + 1) * l.binCount / l.blockBufs
    if new = old then .ok (some (b, i), l1)
    else
      let l2 := moveBlock l1 b new
      let r3 := if l2.nx new = none then insertAfter l2 old new else .ok l2
      match r3 with
      | .ok l3 =>
        if l3.bins old = [] then (remove l3 old).map fun l4 => (some (b, i), l4)
        else .ok (some (b, i), l3)
      | .err => .err
      | .ub => .ub

/-- `ngx_lba_block_free_buf` (ngx_lba.c:210-253). The Boolean tells whether the block was
unmapped. `ngx_queue_head(..) != b || ngx_queue_last(..) != b` on the non-empty queue of bin 0
is `head? ≠ some b ∨ getLast? ≠ some b`. -/
def freeBuf (l : Lba) (b i : Nat) : Res (Bool × Lba) :=
  let k := l.blk b
  let used := k.used - 1
  let l0 := { l with blk := upd l.blk b { k with used := used } }
  if used = 0 ∧ l.bins 0 ≠ [] ∧ ((l.bins 0).head? ≠ some b ∨ (l.bins 0).getLast? ≠ some b) then
    (blockFree l0 b).map fun l1 => (true, l1)
  else
    let l1 := { l with blk := upd l.blk b { k with used := used, free := i :: k.free } }
    let old := k.binIndex
    let new := used * l.binCount / l.blockBufs
    if new = old then .ok (false, l1)
    else
      let l2 := moveBlock l1 b new
      let r3 := if l2.nx new = none then insertBefore l2 old new else .ok l2
      match r3 with
      | .ok l3 =>
        if l3.bins old = [] ∧ old ≠ l3.binCount then (remove l3 old).map fun l4 => (false, l4)
        else .ok (false, l3)
      | .err => .err
      | .ub => .ub

/-- `ngx_lba_alloc` (ngx_lba.c:256-281). A NULL `active->prev` is dereferenced: `ub`. The Boolean
tells whether a new block was mapped. -/
def alloc (l : Lba) (fresh : Option Nat) : Res (Bool × Option Buf × Lba) :=
  match l.pv l.binCount with
  | none => .ub
  | some q =>
    if q = l.binCount then (blockAlloc l fresh).map fun r => (fresh.isSome, r)
    else match (l.bins q).getLast? with
      | none => .ok (false, none, l)
      | some b => (allocBuf l b).map fun r => (false, r)

/-- Allocator together with what the outside world knows: the buffers handed out and not freed,
and the mapped blocks. -/
structure World where
  l      : Lba
  live   : List Buf
  mapped : List Nat

/-- A call to the allocator. -/
inductive Op where
  | alloc (fresh : Option Nat)
  | free (b : Buf)

/-- One call (`ngx_lba_alloc` or `ngx_lba_free`, ngx_lba.c:256-294). -/
def step (w : World) : Op → Res (Option Buf × World)
  | .alloc fresh =>
    match alloc w.l fresh with
    | .ok (isNew, r, l') =>
      let mapped' := match isNew, fresh with
        | true, some b => b :: w.mapped
        | _, _ => w.mapped
      let live' := match r with
        | some x => x :: w.live
        | none => w.live
      .ok (r, { l := l', live := live', mapped := mapped' })
    | .err => .err
    | .ub => .ub
  | .free (b, i) =>
    match freeBuf w.l b i with
    | .ok (unmapped, l') =>
      .ok (none, { l := l', live := w.live.erase (b, i),
                   mapped := if unmapped then w.mapped.erase b else w.mapped })
    | .err => .err
    | .ub => .ub

/-- Contract of the callers: mmap returns a block disjoint from the mapped ones; only live buffers
are freed. -/
def Op.ok (w : World) : Op → Prop
  | .alloc (some b) => ∀ b' ∈ w.mapped, b + blockSize ≤ b' ∨ b' + blockSize ≤ b
  | .alloc none => True
  | .free b => b ∈ w.live

end Verif.Lba
