import Verif.Basic

/-!
# Model of nginx-common/src/ngx_buf_queue_stream.c

The in-use list of a buffer queue (ngx_buf_queue.h:41-52) is modelled by the contents of its
nodes: a list of blocks, each holding the bytes between `ngx_buf_queue_start(node)` and
`ngx_buf_queue_end(queue, node)` (ngx_buf_queue.h:20-24). All blocks have the same size.
A node pointer is the number of the node in the list; a byte pointer is a node number and an
offset from the start of that node.
-/

namespace Verif.BufStream

/-- `ngx_buf_queue_stream_t` (ngx_buf_queue_stream.h:12-16): `node` and `pos`. `pos` is stored
as its own (node, offset) pair, since a failing call moves `node` without moving `pos`. -/
structure Stream where
  node    : Nat
  posNode : Nat
  posOff  : Nat
deriving Repr, DecidableEq

/-- The loop of `ngx_buf_queue_stream_read` (ngx_buf_queue_stream.c:139-160 in the file, loop
`while (size > 0)`). `cur`: content of `node`; `rest`: contents of the following nodes; `i`:
number of the current node; `off`: `pos` inside it. Result: bytes read (`none` = NULL), and the
final values of `stream->node` and of the local `pos` offset. -/
def readLoop {α : Type} (cur : List α) (rest : List (List α)) (i off size : Nat) :
    Option (List α) × Nat × Nat :=
  if size = 0 then (some [], i, off)
  else
    let chunk := min (cur.length - off) size
    let got := (cur.drop off).take chunk
    if cur.length ≤ off + chunk then
      match rest with
      | [] => (none, i, off + chunk)
      | n :: rest' =>
        let r := readLoop n rest' (i + 1) 0 (size - chunk)
        (r.1.map (got ++ ·), r.2)
    else (some got, i, off + chunk)
termination_by structural rest

/-- `ngx_buf_queue_stream_read` (ngx_buf_queue_stream.c:124-165). `err` = NULL return, with the
stream state left behind. A stream whose `pos` is not in `node` makes `end - pos` meaningless: `ub`. -/
def read {α : Type} (q : List (List α)) (s : Stream) (size : Nat) :
    Res (Option (List α) × Stream) :=
  if s.node = s.posNode then
    match q[s.node]? with
    | none => .ub
    | some cur =>
      match readLoop cur (q.drop (s.node + 1)) s.node s.posOff size with
      | (some bytes, i, off) => .ok (some bytes, { node := i, posNode := i, posOff := off })
      | (none, i, _) => .ok (none, { s with node := i })
  else .ub

/-- `ngx_buf_queue_stream_skip` loop (ngx_buf_queue_stream.c:179-195). -/
def skipLoop {α : Type} (cur : List α) (rest : List (List α)) (i off size : Nat) :
    Bool × Nat × Nat :=
  if size < cur.length - off then (true, i, off + size)
  else
    match rest with
    | [] => (false, i, off)
    | n :: rest' => skipLoop n rest' (i + 1) 0 (size - (cur.length - off))

/-- `ngx_buf_queue_stream_skip` (ngx_buf_queue_stream.c:168-196). -/
def skip {α : Type} (q : List (List α)) (s : Stream) (size : Nat) : Res (Bool × Stream) :=
  if s.node = s.posNode then
    match q[s.node]? with
    | none => .ub
    | some cur =>
      match skipLoop cur (q.drop (s.node + 1)) s.node s.posOff size with
      | (true, i, off) => .ok (true, { node := i, posNode := i, posOff := off })
      | (false, i, _) => .ok (false, { s with node := i })
  else .ub

/-- Overwrite `data.length` bytes of a block from `off` (`ngx_copy(pos, p, chunk)`,
ngx_buf_queue_stream.c:101). -/
def overwrite {α : Type} (b : List α) (off : Nat) (data : List α) : List α :=
  b.take off ++ data ++ b.drop (off + data.length)

/-- The loop of `ngx_buf_queue_stream_write` (ngx_buf_queue_stream.c:95-116). Result: success,
new contents of the current and following nodes, final node number and offset. -/
def writeLoop {α : Type} (cur : List α) (rest : List (List α)) (i off : Nat) (data : List α) :
    Bool × List (List α) × Nat × Nat :=
  if data.length = 0 then (true, cur :: rest, i, off)
  else
    let chunk := min (cur.length - off) data.length
    let cur' := overwrite cur off (data.take chunk)
    if cur.length ≤ off + chunk then
      match rest with
      | [] => (false, [cur'], i, off + chunk)
      | n :: rest' =>
        let r := writeLoop n rest' (i + 1) 0 (data.drop chunk)
        (r.1, cur' :: r.2.1, r.2.2)
    else (true, cur' :: rest, i, off + chunk)
termination_by structural rest

/-- `ngx_buf_queue_stream_write` (ngx_buf_queue_stream.c:80-121): success flag, new queue
contents, new stream. -/
def write {α : Type} (q : List (List α)) (s : Stream) (data : List α) :
    Res (Bool × List (List α) × Stream) :=
  if s.node = s.posNode then
    match q[s.node]? with
    | none => .ub
    | some cur =>
      match writeLoop cur (q.drop (s.node + 1)) s.node s.posOff data with
      | (true, blocks, i, off) =>
        .ok (true, q.take s.node ++ blocks, { node := i, posNode := i, posOff := off })
      | (false, blocks, i, _) =>
        .ok (false, q.take s.node ++ blocks, { s with node := i })
  else .ub

/-- `ngx_buf_queue_stream_init_head` (ngx_buf_queue_stream.c:13-20). Must not be called on an
empty queue (ngx_buf_queue_stream.h:19): `ub`. -/
def initHead {α : Type} (q : List (List α)) : Res Stream :=
  match q with
  | [] => .ub
  | _ :: _ => .ok { node := 0, posNode := 0, posOff := 0 }

end Verif.BufStream
