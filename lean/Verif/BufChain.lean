import Verif.Basic

/-!
# Model of nginx-common/src/ngx_buf_chain.c

A chain is the list of its nodes; a node is the list of bytes `data[0 .. size-1]`.
The C code updates nodes in place (`data += n; size -= n`); the model returns the new
chain that `*head_ptr` denotes afterwards.
Simplification: nodes are not shared between chains (no aliasing).
-/

namespace Verif.BufChain

/-- `ngx_buf_chain_t` (ngx_buf_chain.h:11-15): the nodes reachable from a head pointer,
each given by its `size` bytes at `data`. -/
abbrev Chain (α : Type) := List (List α)

/-- `ngx_buf_chain_seek` (ngx_buf_chain.c:6-18). Result: the chain starting at the found
node, and the offset in that node. Running off the chain dereferences NULL: `ub`. -/
def seek {α : Type} : Chain α → Nat → Res (Chain α × Nat)
  | [], _ => .ub
  | b :: rest, offset =>
    if offset < b.length then .ok (b :: rest, offset)
    else seek rest (offset - b.length)

/-- `ngx_buf_chain_skip` (ngx_buf_chain.c:21-44). First component: NGX_OK (`true`) or
NGX_ERROR (`false`); second: the chain at `*head_ptr` afterwards. -/
def skip {α : Type} : Chain α → Nat → Bool × Chain α
  | c, 0 => (true, c)
  | [], _ + 1 => (false, [])
  | b :: rest, size + 1 =>
    if size + 1 < b.length then (true, b.drop (size + 1) :: rest)
    else skip rest (size + 1 - b.length)

/-- `ngx_buf_chain_copy` (ngx_buf_chain.c:47-74). First component: the bytes stored in
`buf`, or `none` for a NULL return; second: the chain at `*head_ptr` afterwards. -/
def copy {α : Type} : Chain α → Nat → Option (List α) × Chain α
  | c, 0 => (some [], c)
  | [], _ + 1 => (none, [])
  | b :: rest, size + 1 =>
    if size + 1 < b.length then
      (some (b.take (size + 1)), b.drop (size + 1) :: rest)
    else
      let r := copy rest (size + 1 - b.length)
      (r.1.map (b ++ ·), r.2)

/-- `ngx_memcmp` on two equally long byte strings: -1, 0 or 1 (only the sign of the C
result is used). nginx core function, not in /repo. -/
def memcmp : List UInt8 → List UInt8 → Int
  | a :: as, b :: bs => if a < b then -1 else if b < a then 1 else memcmp as bs
  | _, _ => 0

/-- The loop of `ngx_buf_chain_compare` (ngx_buf_chain.c:88-103). `buf` is the rest of the
caller's buffer, its length is the C variable `size`. -/
def compareLoop : Chain UInt8 → List UInt8 → Int
  | [], _ => 1
  | b :: rest, buf =>
    if buf.length ≤ b.length then memcmp buf (b.take buf.length)
    else
      let rc := memcmp (buf.take b.length) b
      if rc ≠ 0 then rc else compareLoop rest (buf.drop b.length)

/-- `ngx_buf_chain_compare` (ngx_buf_chain.c:77-104). -/
def compare (c : Chain UInt8) (buf : List UInt8) : Int :=
  if buf.length ≤ 0 then 0 else compareLoop c buf

/-- Unsigned 32-bit subtraction as in `size -= data->size` with `uint32_t size`
(ngx_buf_chain.c:118). -/
def sub32 (a b : Nat) : Nat := (a + 2 ^ 32 - b % 2 ^ 32) % 2 ^ 32

/-- `ngx_buf_chain_get_tail` (ngx_buf_chain.c:107-127), release build (the NGX_DEBUG check
only raises a debug signal). Result: the chain starting at the returned node. Running off
the chain dereferences NULL: `ub`. -/
def getTail {α : Type} : Chain α → Nat → Res (Chain α)
  | [], _ => .ub
  | b :: rest, size =>
    let size' := sub32 size b.length
    if size' ≤ 0 then .ok (b :: rest) else getTail rest size'

/-- `ngx_buf_chain_terminate` (ngx_buf_chain.c:130-138): the chain reachable from `data`
after the tail's `next` was cleared, paired with the bytes of the returned tail node. -/
def terminate {α : Type} : Chain α → Nat → Res (Chain α × List α)
  | [], _ => .ub
  | b :: rest, size =>
    let size' := sub32 size b.length
    if size' ≤ 0 then .ok ([b], b)
    else match terminate rest size' with
      | .ok (c, t) => .ok (b :: c, t)
      | .err => .err
      | .ub => .ub

end Verif.BufChain
