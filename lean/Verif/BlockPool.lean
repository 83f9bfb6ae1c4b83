import Verif.Basic

/-!
# Model of nginx-live-module/src/ngx_block_pool.c

Addresses are numbers. The free list of a slot is the list of the buffers in it (the C code links
them through their first word and keeps head and tail). `NGX_BLOCK_POOL_SKIP` is off.
The address returned by `ngx_palloc` is an input (`none` = NULL).
Simplifications: `size * 4` does not overflow; the page size is a power of two, so that
`(x + p - 1) & ~(p - 1)` is `x` rounded up to a multiple of `p`; log calls and NGX_DEBUG
validation are dropped; the statistics `auto_used`, `auto_nalloc` are dropped.
-/

namespace Verif.BlockPool

/-- `ngx_block_pool_slot_t` (ngx_block_pool.h:16-31). `fin` is `end`. -/
structure Slot where
  size   : Nat
  nalloc : Nat
  total  : Nat
  alloc  : Nat
  free   : List Nat
  pos    : Nat
  fin    : Nat
deriving Repr, DecidableEq

/-- `ngx_block_pool_init_slot` (ngx_block_pool.c:50-64) with the zeroed counters of
ngx_block_pool.c:203-208. -/
def initSlot (pageSize size : Nat) : Slot :=
  let size := if size < 8 then 8 else size
  { size, nalloc := 0, total := 0, alloc := (size * 4 + pageSize - 1) / pageSize * pageSize,
    free := [], pos := 0, fin := 0 }

/-- `ngx_block_pool_t` (ngx_block_pool.h:34-39) with the budget `*mem_limit`. -/
structure Pool where
  slots    : List Slot
  memLimit : Nat
deriving Repr, DecidableEq

/-- `ngx_block_pool_create` (ngx_block_pool.c:179-214). -/
def create (pageSize : Nat) (sizes : List Nat) (memLimit : Nat) : Pool :=
  { slots := sizes.map (initSlot pageSize), memLimit }

/-- `ngx_block_pool_alloc_internal` (ngx_block_pool.c:67-106). Result: the buffer (`none` = NULL),
whether a chunk was taken from the system, the slot and the budget. `(size_t) (end - pos)` with
`end < pos` would wrap around: `ub`. -/
def allocInternal (s : Slot) (memLimit : Nat) (fresh : Option Nat) :
    Res (Option Nat × Bool × Slot × Nat) :=
  match s.free with
  | p :: rest => .ok (some p, false, { s with free := rest, nalloc := s.nalloc + 1 }, memLimit)
  | [] =>
    if s.fin < s.pos then .ub
    else if s.fin - s.pos < s.size then
      if memLimit < s.alloc then .ok (none, false, s, memLimit)
      else match fresh with
        | none => .ok (none, false, s, memLimit)
        | some c =>
          .ok (some c, true,
               { s with fin := c + s.alloc, total := s.total + s.alloc, pos := c + s.size,
                        nalloc := s.nalloc + 1 },
               memLimit - s.alloc)
    else .ok (some s.pos, false, { s with pos := s.pos + s.size, nalloc := s.nalloc + 1 }, memLimit)

/-- `ngx_block_pool_free_list_internal` (ngx_block_pool.c:109-123). -/
def freeInternal (s : Slot) (ps : List Nat) : Slot := { s with free := s.free ++ ps }

/-- `ngx_block_pool_alloc` (ngx_block_pool.c:217-230). -/
def alloc (bp : Pool) (index : Nat) (fresh : Option Nat) : Res (Option Nat × Bool × Pool) :=
  match bp.slots[index]? with
  | none => .ok (none, false, bp)
  | some s =>
    match allocInternal s bp.memLimit fresh with
    | .ok (r, isNew, s', m) => .ok (r, isNew, { slots := bp.slots.set index s', memLimit := m })
    | .err => .err
    | .ub => .ub

/-- `ngx_block_pool_free_list` (ngx_block_pool.c:257-287); `ngx_block_pool_free`
(ngx_block_pool.c:248-254) is the case of one buffer. -/
def freeList (bp : Pool) (index : Nat) (ps : List Nat) : Pool :=
  match bp.slots[index]? with
  | none => bp
  | some s => { bp with slots := bp.slots.set index (freeInternal s ps) }

/-- `sizeof(ngx_block_pool_auto_header_t)` (ngx_block_pool.h:42-44). -/
def autoHdr : Nat := 4

/-- The binary search of `ngx_block_pool_auto_alloc` (ngx_block_pool.c:316-344). The first argument
bounds the number of rounds; `ub` marks running out of rounds or indexing outside the table (both
shown impossible). `ok none` is "no matching slot". -/
def search (sizes : List Nat) (size : Nat) : Nat → Int → Int → Res (Option Nat)
  | 0, _, _ => .ub
  | fuel + 1, left, right =>
    if left > right then
      if left.toNat < sizes.length then .ok (some left.toNat) else .ok none
    else
      let index := (left + right) / 2
      match sizes[index.toNat]? with
      | none => .ub
      | some s =>
        if s < size then search sizes size fuel (index + 1) right
        else if s > size then search sizes size fuel left (index - 1)
        else .ok (some index.toNat)

/-- `ngx_block_pool_auto_alloc` (ngx_block_pool.c:307-373). Result: the chosen slot and the address
of the header (the caller gets `header + 4`). -/
def autoAlloc (bp : Pool) (size : Nat) (fresh : Option Nat) :
    Res (Option (Nat × Nat) × Bool × Pool) :=
  match search (bp.slots.map (·.size)) (size + autoHdr) (bp.slots.length + 1) 0
      ((bp.slots.length : Int) - 1) with
  | .ok none => .ok (none, false, bp)
  | .ok (some index) =>
    match alloc bp index fresh with
    | .ok (r, isNew, bp') => .ok (r.map fun p => (index, p), isNew, bp')
    | .err => .err
    | .ub => .ub
  | .err => .err
  | .ub => .ub

/-- A buffer handed out: address, slot number and size of the slot it came from, and whether it was
allocated by size (then the first four bytes hold the header). -/
structure Entry where
  ptr  : Nat
  slot : Nat
  size : Nat
  auto : Bool
deriving Repr, DecidableEq

/-- The pool and its surroundings: buffers handed out and not freed, chunks obtained from the
system, memory other users of the same budget hold, and the header words of the buffers. The
header word is only written by `ngx_block_pool_auto_alloc` (users do not write before the pointer
they got). -/
structure World where
  bp     : Pool
  live   : List Entry
  chunks : List (Nat × Nat)
  other  : Nat
  hdr    : Nat → Nat

/-- One call, or activity of another user of the budget. -/
inductive Op where
  | alloc (index : Nat) (fresh : Option Nat)
  | freeList (index : Nat) (es : List Entry)
  | autoAlloc (size : Nat) (fresh : Option Nat)
  | autoFree (p : Nat)
  | envTake (n : Nat)
  | envGive (n : Nat)

/-- The chunk obtained in this step, if any. The chunk has the size `slot->alloc`. -/
def newChunk (bp : Pool) (index : Nat) (isNew : Bool) (fresh : Option Nat) : List (Nat × Nat) :=
  match isNew, fresh, bp.slots[index]? with
  | true, some c, some s => [(c, s.alloc)]
  | _, _, _ => []

/-- Size of a slot, as returned by `ngx_block_pool_get_size` (ngx_block_pool.c:290-304). -/
def getSize (bp : Pool) (index : Nat) : Nat :=
  match bp.slots[index]? with
  | none => 0
  | some s => s.size

/-- One step (API functions of ngx_block_pool.c:217-287, 307-384). -/
def step (w : World) : Op → Res (Option Entry × World)
  | .alloc index fresh =>
    match alloc w.bp index fresh with
    | .ok (r, isNew, bp') =>
      let e := r.map fun p => { ptr := p, slot := index, size := getSize w.bp index, auto := false }
      .ok (e, { w with bp := bp', live := e.toList ++ w.live,
                       chunks := newChunk w.bp index isNew fresh ++ w.chunks })
    | .err => .err
    | .ub => .ub
  | .freeList index es =>
    .ok (none, { w with bp := freeList w.bp index (es.map (·.ptr)),
                        live := w.live.filter (fun e => !es.contains e) })
  | .autoAlloc size fresh =>
    match autoAlloc w.bp size fresh with
    | .ok (none, _, bp') => .ok (none, { w with bp := bp' })
    | .ok (some (index, p), isNew, bp') =>
      let e : Entry := { ptr := p, slot := index, size := getSize w.bp index, auto := true }
      .ok (some e, { w with bp := bp', live := e :: w.live,
                            chunks := newChunk w.bp index isNew fresh ++ w.chunks,
                            hdr := fun a => if a = p then index else w.hdr a })
    | .err => .err
    | .ub => .ub
  | .autoFree p =>
    .ok (none, { w with bp := freeList w.bp (w.hdr p) [p],
                        live := w.live.filter (fun e => e.ptr != p) })
  | .envTake n => .ok (none, { w with bp := { w.bp with memLimit := w.bp.memLimit - n },
                                      other := w.other + n })
  | .envGive n => .ok (none, { w with bp := { w.bp with memLimit := w.bp.memLimit + n },
                                      other := w.other - n })

/-- Two memory regions (address, length) do not overlap. -/
def Disj (a b : Nat × Nat) : Prop :=
  a.2 = 0 ∨ b.2 = 0 ∨ a.1 + a.2 ≤ b.1 ∨ b.1 + b.2 ≤ a.1

/-- The size of the chunk the pool would ask for in this step. -/
def wanted (bp : Pool) : Op → Nat
  | .alloc index _ => match bp.slots[index]? with
    | some s => s.alloc
    | none => 0
  | .autoAlloc size _ =>
    match search (bp.slots.map (·.size)) (size + autoHdr) (bp.slots.length + 1) 0
        ((bp.slots.length : Int) - 1) with
    | .ok (some index) => (match bp.slots[index]? with
      | some s => s.alloc
      | none => 0)
    | _ => 0
  | _ => 0

/-- Contract of the surroundings: the system returns chunks disjoint from the previous ones;
buffers are freed once, to the slot they came from; budget users are honest. -/
def Op.ok (w : World) : Op → Prop
  | .alloc i (some c) => ∀ d ∈ w.chunks, Disj (c, wanted w.bp (.alloc i (some c))) d
  | .autoAlloc n (some c) => ∀ d ∈ w.chunks, Disj (c, wanted w.bp (.autoAlloc n (some c))) d
  | .freeList i es => es.Nodup ∧ ∀ e ∈ es, e ∈ w.live ∧ e.slot = i
  | .autoFree p => ∃ e ∈ w.live, e.ptr = p ∧ e.auto = true
  | .envTake n => n ≤ w.bp.memLimit
  | .envGive n => n ≤ w.other
  | _ => True

end Verif.BlockPool
