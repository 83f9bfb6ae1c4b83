import Verif.Rstream

/-!
# Model of nginx-live-module/src/ngx_live_segment_list.c

The queue of nodes is a list. The red-black tree holds the same nodes; a lookup gets any binary tree whose in-order walk
gives the positions of the nodes in the queue (`Tree`). A pointer to a node is its position in the queue, a pointer to an
element its position in the node. Signed overflow of times is `ub`; indexes are 32 bit, and wrap only where the C code
can reach it (`add32`, `sub32`). Not modelled: logging, JSON, and the state that a failed read leaves behind.
-/

namespace Verif.SegmentList

open Verif.Rstream (le32)

/-- `ngx_live_segment_repeat_t` (ngx_ksmp.h:149-152). -/
structure Elt where
  dur : Nat
  count : Nat
deriving Repr, DecidableEq

/-- `NGX_LIVE_SEGMENT_LIST_NODE_ELTS` (ngx_live_segment_list.c:7). -/
def maxElts : Nat := 118

/-- `ngx_live_segment_list_node_t` (ngx_live_segment_list.c:10-18); `elts` are the first `nelts` elements. -/
structure Node where
  key : Nat
  time : Int
  last : Nat
  period : Nat
  elts : List Elt
deriving Repr, DecidableEq

/-- `ngx_live_segment_list_t` (ngx_live_segment_list.h:26-40). -/
structure SL where
  nodes : List Node
  nodeCount : Nat
  eltCount : Nat
  segCount : Nat
  lastTime : Int
  isFirst : Bool
deriving Repr, DecidableEq

/-- `ngx_live_segment_list_init` (ngx_live_segment_list.c:36-52). -/
def init : SL := { nodes := [], nodeCount := 0, eltCount := 0, segCount := 0, lastTime := 0, isFirst := false }

/-- `NGX_LIVE_PENDING_SEGMENT_DURATION` (ngx_ksmp.h:73). -/
def pending : Nat := 0

/-- The value of a signed 64 bit expression. -/
def i64 (x : Int) : Res Int := if -2 ^ 63 ≤ x ∧ x < 2 ^ 63 then .ok x else .ub

/-- The value of an unsigned 32 bit sum and difference. -/
def add32 (a b : Nat) : Nat := if a + b < 2 ^ 32 then a + b else a + b - 2 ^ 32
def sub32 (a b : Nat) : Nat := if b ≤ a then a - b else a + 2 ^ 32 - b

/-- Replaces the last element. -/
def setLast {α : Type} (l : List α) (x : α) : List α := l.dropLast ++ [x]

/-! ## Changes -/

/-- The node of `ngx_live_segment_list_add` (ngx_live_segment_list.c:99-122) that is new; `alloc` is false when the pool
is exhausted. -/
def addNode (s : SL) (alloc : Bool) (idx : Nat) (time : Int) (dur period : Nat) : Res SL :=
  if alloc then do
    let t ← i64 (time + dur)
    .ok { s with nodes := s.nodes ++ [{ key := idx, time, last := idx, period, elts := [{ dur, count := 1 }] }],
                 nodeCount := s.nodeCount + 1, eltCount := s.eltCount + 1, segCount := s.segCount + 1, lastTime := t }
  else .err

/-- `ngx_live_segment_list_add` (ngx_live_segment_list.c:55-129). A node without elements is undefined behaviour (it reads
in front of the array). -/
def add (s : SL) (alloc : Bool) (idx : Nat) (time : Int) (dur : Nat) : Res SL :=
  match s.nodes.getLast? with
  | none => addNode s alloc idx time dur 0
  | some n =>
    if time = s.lastTime ∧ idx = add32 n.last 1 then
      match n.elts.getLast? with
      | none => .ub
      | some e =>
        if e.dur = dur then do
          let t ← i64 (time + dur)
          .ok { s with nodes := setLast s.nodes { n with elts := setLast n.elts { e with count := e.count + 1 }, last := idx },
                       segCount := s.segCount + 1, lastTime := t }
        else if n.elts.length < maxElts then do
          let t ← i64 (time + dur)
          .ok { s with nodes := setLast s.nodes { n with elts := n.elts ++ [{ dur, count := 1 }], last := idx },
                       eltCount := s.eltCount + 1, segCount := s.segCount + 1, lastTime := t }
        else addNode s alloc idx time dur n.period
    else addNode s alloc idx time dur (n.period + 1)

/-- `ngx_live_segment_list_update_last` (ngx_live_segment_list.c:132-218). -/
def updateLast (s : SL) (dur : Nat) : Res SL :=
  match s.nodes.getLast? with
  | none => .err
  | some n => match n.elts.getLast? with
    | none => .ub
    | some e =>
      if e.count ≠ 1 then .err
      else if e.dur ≠ pending then .err
      else do
        let t ← i64 (s.lastTime + dur)
        let new := { s with nodes := setLast s.nodes { n with elts := setLast n.elts { e with dur } }, lastTime := t }
        match n.elts.dropLast.getLast? with
        | some p =>
          if p.dur ≠ dur then .ok new
          else .ok { s with nodes := setLast s.nodes { n with elts := setLast n.elts.dropLast { p with count := p.count + 1 } },
                            eltCount := s.eltCount - 1, lastTime := t }
        | none => match s.nodes.dropLast.getLast? with
          | none => .ok new
          | some m => match m.elts.getLast? with
            | none => .ub
            | some p =>
              if m.period ≠ n.period ∨ p.dur ≠ dur then .ok new
              else .ok { s with nodes := setLast s.nodes.dropLast
                                  { m with elts := setLast m.elts { p with count := p.count + 1 }, last := n.last },
                                nodeCount := s.nodeCount - 1, eltCount := s.eltCount - n.elts.length, lastTime := t }

/-- The loop of `ngx_live_segment_list_free_nodes` (ngx_live_segment_list.c:221-262). -/
def freeLoop (min : Nat) : List Node → SL → SL
  | n :: m :: rest, s =>
    if min ≤ m.key then { s with nodes := n :: m :: rest }
    else freeLoop min (m :: rest) { s with nodeCount := s.nodeCount - 1, eltCount := s.eltCount - n.elts.length,
                                           segCount := s.segCount - (n.last + 1 - n.key) }
  | ns, s => { s with nodes := ns }

def freeNodes (s : SL) (min : Nat) : SL := freeLoop min s.nodes s

/-! ## Lookup -/

/-- The shape of the red-black tree, with positions of nodes. -/
inductive Tree where
  | leaf
  | node (l : Tree) (i : Nat) (r : Tree)

def Tree.walk : Tree → List Nat
  | .leaf => []
  | .node l i r => l.walk ++ i :: r.walk

/-- `ngx_live_segment_iter_t` (ngx_live_segment_list.h:43-47). -/
structure Iter where
  node : Nat
  elt : Nat
  off : Nat
deriving Repr, DecidableEq

/-- What the search in `ngx_live_segment_iter_init` finds. -/
inductive Found where
  | within (i : Nat)
  | after (i : Nat)
deriving Repr, DecidableEq

/-- The search in the tree of `ngx_live_segment_iter_init` (ngx_live_segment_list.c:870-913), on a tree that is not a leaf. -/
def findIdx (ns : List Node) (x : Nat) : Tree → Res Found
  | .leaf => .ub
  | .node l i r => match ns[i]? with
    | none => .ub
    | some n =>
      if x < n.key then
        match l with
        | .leaf => .ok (.after i)
        | _ => findIdx ns x l
      else if x > n.last then
        match r with
        | .leaf => if i + 1 = ns.length then .err else .ok (.after (i + 1))
        | _ => findIdx ns x r
      else .ok (.within i)

/-- The walk through the elements of a node (ngx_live_segment_list.c:917-942). -/
def locate (left : Nat) (time : Int) : List Elt → Nat → Res (Nat × Nat × Int)
  | [], _ => .err
  | e :: es, k =>
    if left < e.count then do
      let p ← i64 (left * e.dur)
      let t ← i64 (time + p)
      .ok (k, left, t)
    else do
      let p ← i64 (e.count * e.dur)
      let t ← i64 (time + p)
      locate (left - e.count) t es (k + 1)

/-- `ngx_live_segment_iter_init` (ngx_live_segment_list.c:846-943). -/
def iterInit (s : SL) (t : Tree) (x : Nat) (strict : Bool) : Res (Iter × Int) :=
  match t with
  | .leaf => .err
  | _ => do
    match ← findIdx s.nodes x t with
    | .after i => if strict then .err else match s.nodes[i]? with
      | none => .ub
      | some n => .ok (⟨i, 0, 0⟩, n.time)
    | .within i => match s.nodes[i]? with
      | none => .ub
      | some n => do
        let (e, off, time) ← locate (x - n.key) n.time n.elts 0
        .ok (⟨i, e, off⟩, time)

/-- `ngx_live_segment_iter_last` (ngx_live_segment_list.c:946-959). -/
def iterLast (s : SL) : Res Iter :=
  match s.nodes.getLast? with
  | none => .ub
  | some n => match n.elts.getLast? with
    | none => .ub
    | some e => .ok ⟨s.nodes.length - 1, n.elts.length - 1, e.count - 1⟩

/-- `ngx_live_segment_iter_move_next` (ngx_live_segment_list.c:962-981), with the element the iterator is at. The
sentinel of the queue is not a node: using it is undefined behaviour. -/
def moveNext (s : SL) (it : Iter) : Res (Iter × Elt) :=
  match s.nodes[it.node]? with
  | none => .ub
  | some n => match n.elts[it.elt]? with
    | none => .ub
    | some e =>
      if it.off < e.count then .ok (it, e)
      else match n.elts[it.elt + 1]? with
        | some e' => .ok (⟨it.node, it.elt + 1, 0⟩, e')
        | none => match s.nodes[it.node + 1]? with
          | none => .ub
          | some m => match m.elts[0]? with
            | none => .ub
            | some e' => .ok (⟨it.node + 1, 0, 0⟩, e')

/-- `ngx_live_segment_iter_peek` (ngx_live_segment_list.c:984-990). -/
def peek (s : SL) (it : Iter) : Res (Nat × Iter) := do
  let (it', e) ← moveNext s it
  .ok (e.dur, it')

/-- `ngx_live_segment_iter_get_one` (ngx_live_segment_list.c:993-1001). -/
def getOne (s : SL) (it : Iter) : Res (Nat × Iter) := do
  let (it', e) ← moveNext s it
  .ok (e.dur, { it' with off := it'.off + 1 })

/-- `ngx_live_segment_iter_get_element` (ngx_live_segment_list.c:1004-1016). -/
def getElement (s : SL) (it : Iter) : Res (Elt × Iter) := do
  let (it', e) ← moveNext s it
  .ok ({ dur := e.dur, count := e.count - it'.off }, { it' with off := e.count })

/-- The search in the tree of `ngx_live_segment_list_get_segment_index` (ngx_live_segment_list.c:289-321), on a tree that
is not a leaf. -/
def findTime (ns : List Node) (time : Int) : Tree → Res Nat
  | .leaf => .ub
  | .node l i r => match ns[i]? with
    | none => .ub
    | some n =>
      if time < n.time then
        match l with
        | .leaf => if i = 0 then .err else .ok (i - 1)
        | _ => findTime ns time l
      else
        match r with
        | .leaf => .ok i
        | _ => findTime ns time r

/-- The time that is divided (ngx_live_segment_list.c:339-341). -/
def rounded (time : Int) (closest : Bool) (dur : Nat) : Res Int := if closest then i64 (time + (dur / 2 : Nat)) else .ok time

/-- The walk through the elements (ngx_live_segment_list.c:323-351): element, offset, index and time of the segment. A
duration of zero in the division is undefined behaviour. -/
def seek (time : Int) (closest : Bool) : List Elt → Nat → Nat → Int → Res (Nat × Nat × Nat × Int)
  | [], _, _, _ => .err
  | e :: es, k, idx, st => do
    let p ← i64 (e.count * e.dur)
    let fin ← i64 (st + p)
    if time ≥ fin then seek time closest es (k + 1) (idx + e.count) fin
    else do
      let tm ← rounded time closest e.dur
      let d ← i64 (tm - st)
      if e.dur = 0 then .ub
      else
        let off := (d / (e.dur : Int)).toNat
        let q ← i64 (off * e.dur)
        let t ← i64 (st + q)
        .ok (k, off, idx + off, t)

/-- `ngx_live_segment_list_get_segment_index` (ngx_live_segment_list.c:265-352). -/
def getSegmentIndex (s : SL) (t : Tree) (time : Int) (closest : Bool) : Res (Nat × Int × Iter) :=
  match t with
  | .leaf => .err
  | _ => do
    let i ← findTime s.nodes time t
    match s.nodes[i]? with
    | none => .ub
    | some n => do
      let (e, off, idx, st) ← seek time closest n.elts 0 n.key n.time
      .ok (idx, st, ⟨i, e, off⟩)

/-- `ngx_live_segment_list_get_period_end_time` (ngx_live_segment_list.c:355-385). -/
def periodEnd (s : SL) (t : Tree) (start : Iter) (lastIdx : Nat) : Res Int := do
  let (it, time) ← iterInit s t lastIdx true
  let (d, it) ← getOne s it
  match s.nodes[start.node]?, s.nodes[it.node]? with
  | some a, some b => if a.period ≠ b.period then .err else i64 (time + d)
  | _, _ => .ub

/-! ## Saving -/

/-- What one period block holds (ngx_live_segment_list.c:21-26 and the elements). -/
structure Block where
  time : Int
  idx : Nat
  elts : List Elt
deriving Repr, DecidableEq

/-- The range of a save (`scope` of the snapshot). -/
structure Scope where
  min : Nat
  max : Nat
deriving Repr, DecidableEq

/-- `ngx_live_segment_list_write_node_part` (ngx_live_segment_list.c:388-431): elements up to the index `max1`, which is
not included. -/
def writePart (max1 : Nat) : Nat → List Elt → List Elt
  | _, [] => []
  | idx, e :: es =>
    if add32 idx e.count ≥ max1 then [{ e with count := sub32 max1 idx }]
    else e :: writePart max1 (add32 idx e.count) es

/-- The loop of `ngx_live_segment_list_write_periods` (ngx_live_segment_list.c:494-556). -/
def writeNodes (max : Nat) : Nat → Block → List Node → List Block
  | _, cur, [] => [cur]
  | period, cur, n :: ns =>
    if n.key > max then [cur]
    else
      let out := if n.period ≠ period then [cur] else []
      let cur := if n.period ≠ period then { time := n.time, idx := n.key, elts := [] } else cur
      if n.last > max then out ++ [{ cur with elts := cur.elts ++ writePart (add32 max 1) n.key n.elts }]
      else out ++ writeNodes max n.period { cur with elts := cur.elts ++ n.elts } ns

/-- `ngx_live_segment_list_write_periods` (ngx_live_segment_list.c:434-562). -/
def writePeriods (s : SL) (t : Tree) (sc : Scope) : Res (List Block) :=
  match iterInit s t sc.min false with
  | .err => .ok []
  | .ub => .ub
  | .ok (it, time) => match s.nodes[it.node]? with
    | none => .ub
    | some n => match n.elts[it.elt]? with
      | none => .ub
      | some e =>
        if sc.min < n.key ∧ n.key > sc.max then .ok []
        else
          let idx := if sc.min < n.key then n.key else sc.min
          let part := writePart (add32 sc.max 1) idx ({ e with count := e.count - it.off } :: n.elts.drop (it.elt + 1))
          .ok (writeNodes sc.max n.period { time, idx, elts := part } (s.nodes.drop (it.node + 1)))

/-- A signed 64 bit value in memory. -/
def le64 (x : Int) : List UInt8 := le32 ((x % 2 ^ 64).toNat % 2 ^ 32) ++ le32 ((x % 2 ^ 64).toNat / 2 ^ 32)

/-- The bytes of a block: the period (ngx_live_segment_list.c:21-26), and the elements (ngx_ksmp.h:149-152). -/
def Block.bytes (b : Block) : List UInt8 :=
  le64 b.time ++ le32 b.idx ++ le32 0 ++ b.elts.flatMap fun e => le32 e.count ++ le32 e.dur

/-! ## Restoring -/

/-- The value of bytes of memory, little endian. -/
def num (l : List UInt8) : Nat := l.foldr (fun b n => b.toNat + 256 * n) 0

/-- 8 bytes as a signed value. -/
def int64 (l : List UInt8) : Int := if num l < 2 ^ 63 then num l else (num l : Int) - 2 ^ 64

/-- The elements in the data; bytes after the last whole element are ignored. -/
def decode : List UInt8 → List Elt
  | a :: b :: c :: d :: e :: f :: g :: h :: rest =>
    { count := num [a, b, c, d], dur := num [e, f, g, h] } :: decode rest
  | _ => []

/-- The test and the sums of an element (ngx_live_segment_list.c:653-672, 692-709 and 748-766). -/
def takeElts (max1 : Nat) : Nat → Int → List Elt → Res (Nat × Int)
  | idx, time, [] => .ok (idx, time)
  | idx, time, e :: es =>
    if e.count ≤ 0 then .err
    else if e.count > sub32 max1 idx then .err
    else do
      let p ← i64 (e.dur * e.count)
      let t ← i64 (time + p)
      takeElts max1 (add32 idx e.count) t es

/-- The loop that adds nodes (ngx_live_segment_list.c:725-776); `alloc` is how many nodes the pool has left. The first
argument bounds the recursion; running out is `ub`. -/
def newNodes (max1 period : Nat) : Nat → Nat → Nat → Int → List Elt → Res (List Node × Nat × Int)
  | _, _, idx, time, [] => .ok ([], idx, time)
  | 0, _, _, _, _ :: _ => .ub
  | f + 1, alloc, idx, time, es => do
    if alloc ≤ 0 then .err
    else
      let (idx', time') ← takeElts max1 idx time (es.take maxElts)
      let (ns, i, t) ← newNodes max1 period f (alloc - 1) idx' time' (es.drop maxElts)
      .ok ({ key := idx, time, last := sub32 idx' 1, period, elts := es.take maxElts } :: ns, i, t)

/-- The end of `ngx_live_segment_list_read_period` (ngx_live_segment_list.c:725-783): the nodes that are new, after `pre`. -/
def readRest (s : SL) (max1 alloc : Nat) (pre : List Node) (period start idx : Nat) (time : Int) (es : List Elt) (nelts : Nat) :
    Res SL := do
  let (ns, i, t) ← newNodes max1 period es.length alloc idx time es
  .ok { nodes := pre ++ ns, nodeCount := s.nodeCount + ns.length, eltCount := s.eltCount + nelts,
        segCount := s.segCount + sub32 i start, lastTime := t, isFirst := false }

/-- The first element is merged with the last one of the list (ngx_live_segment_list.c:650-677): the elements of the last
node, index and time behind, and the elements left. -/
def merge (max1 idx : Nat) (time : Int) (last : List Elt) : List Elt → Res (List Elt × Nat × Int × List Elt)
  | [] => .ub
  | e :: es => match last.getLast? with
    | none => .ub
    | some d =>
      if d.dur = e.dur then do
        let (i, t) ← takeElts max1 idx time [e]
        .ok (setLast last { d with count := add32 d.count e.count }, i, t, es)
      else .ok (last, idx, time, e :: es)

/-- `ngx_live_segment_list_read_period` (ngx_live_segment_list.c:610-784), after the header of the block. -/
def readElts (s : SL) (sc : Scope) (alloc idx : Nat) (time : Int) (es : List Elt) : Res SL :=
  let max1 := add32 sc.max 1
  match s.nodes.getLast? with
  | none => readRest s max1 alloc [] 0 idx idx time es es.length
  | some n =>
    if s.isFirst ∧ n.last ≥ sc.min then .err
    else if time < s.lastTime then .err
    else if time = s.lastTime ∧ idx = add32 n.last 1 then do
      let (old, i, t, es') ← merge max1 idx time n.elts es
      let room := maxElts - old.length
      let (i, t) ← takeElts max1 i t (es'.take room)
      let n' := { n with elts := old ++ es'.take room, last := sub32 i 1 }
      readRest s max1 alloc (setLast s.nodes n') n.period idx i t (es'.drop room) es'.length
    else readRest s max1 alloc s.nodes (n.period + 1) idx idx time es es.length

/-- `ngx_live_segment_list_read_period` (ngx_live_segment_list.c:565-784) on the bytes of a block. `skip` is what the
header of the block is longer than the 16 bytes known here, `none` when it is shorter (ngx_persist_read.c:195-225). -/
def readPeriod (s : SL) (sc : Scope) (alloc : Nat) (bytes : List UInt8) (skip : Option Nat) : Res SL :=
  if bytes.length < 16 then .err
  else
    let time := int64 (bytes.take 8)
    let idx := num ((bytes.drop 8).take 4)
    if idx < sc.min ∨ idx > sc.max then .err
    else match skip with
      | none => .err
      | some k =>
        if bytes.length < 16 + k then .err
        else
          let es := decode (bytes.drop (16 + k))
          if es.isEmpty then .ok s else readElts s sc alloc idx time es

/-- All blocks of a save, in order, by `ngx_live_timeline_read_segment_list` (ngx_live_timeline.c:3180-3198). -/
def readBlocks (sc : Scope) (alloc : Nat) : SL → List (List UInt8 × Option Nat) → Res SL
  | s, [] => .ok s
  | s, b :: bs => do
    let s' ← readPeriod s sc alloc b.1 b.2
    readBlocks sc alloc s' bs

def readList (s : SL) (sc : Scope) (alloc : Nat) (bs : List (List UInt8 × Option Nat)) : Res SL :=
  readBlocks sc alloc { s with isFirst := true } bs

end Verif.SegmentList
