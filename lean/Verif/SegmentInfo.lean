import Verif.SegmentList

/-!
# Model of nginx-live-module/src/ngx_live_segment_info.c, nginx-pckg-module/src/ngx_pckg_segment_info.c and the gap tags of
ngx_http_pckg_m3u8.c

The queue of nodes of a track is a list, the red-black tree over it any binary tree whose in-order walk gives the positions of
the nodes (`SegmentList.Tree`). Not modelled: logging, the state that a failed call leaves behind (the channel is freed), the rate
at which the channel looks for nodes to free, and how the bitrate of a track is estimated from that of its media.
-/

namespace Verif.SegmentInfo

open Verif.Rstream (le32)
open Verif.SegmentList (Tree Scope num add32 setLast)

/-- `ngx_ksmp_segment_info_elt_t` (ngx_ksmp.h:191-194). -/
structure Elt where
  idx : Nat
  bitrate : Nat
deriving Repr, DecidableEq

/-- `NGX_LIVE_SEGMENT_INFO_NODE_ELTS` (ngx_live_segment_info.c:11). -/
def maxElts : Nat := 120

/-- `NGX_LIVE_INVALID_SEGMENT_INDEX` (ngx_ksmp.h:69) and `NGX_LIVE_SEGMENT_NO_BITRATE` (ngx_ksmp.h:75). -/
def invalid : Nat := 2 ^ 32 - 1
def noBitrate : Nat := 1

/-- `ngx_live_segment_info_node_s` (ngx_live_segment_info.c:31-36); `elts` are the first `nelts` elements. -/
structure Node where
  key : Nat
  elts : List Elt
deriving Repr, DecidableEq

/-- `ngx_live_segment_info_preset_conf_t` (ngx_live_segment_info.c:22-28). -/
structure Conf where
  gaps : Bool
  bitrate : Bool
  lower : Nat
  upper : Nat

/-- `ngx_live_segment_info_track_ctx_t` (ngx_live_segment_info.c:39-46). -/
structure Track where
  nodes : List Node
  lastBitrate : Nat
  initial : Nat
  lastIdx : Nat
deriving Repr, DecidableEq

/-- `ngx_live_segment_info_track_init` (ngx_live_segment_info.c:539-561), on a context of zeros. -/
def init (c : Conf) : Track :=
  if c.gaps then { nodes := [], lastBitrate := 0, initial := 0, lastIdx := invalid }
  else { nodes := [], lastBitrate := noBitrate * 100, initial := noBitrate, lastIdx := invalid }

/-- The new node of `ngx_live_segment_info_push` (ngx_live_segment_info.c:147-166); `alloc` is false when the pool is
exhausted. -/
def pushNode (s : Track) (alloc : Bool) (e : Elt) : Res Track :=
  if alloc then .ok { s with nodes := s.nodes ++ [{ key := e.idx, elts := [e] }] } else .err

/-- `ngx_live_segment_info_push` (ngx_live_segment_info.c:124-167), with the bitrate that the caller stores. -/
def push (s : Track) (alloc : Bool) (e : Elt) : Res Track :=
  match s.nodes.getLast? with
  | none => pushNode s alloc e
  | some n =>
    if n.elts.length < maxElts then .ok { s with nodes := setLast s.nodes { n with elts := n.elts ++ [e] } }
    else pushNode s alloc e

/-- The bitrate that is recorded (ngx_live_segment_info.c:205-210). -/
def effective (c : Conf) (b : Nat) : Nat := if b ≠ 0 ∧ c.bitrate = false then noBitrate else b

/-- The last bitrate is near enough (ngx_live_segment_info.c:218-223), in 64 bit. -/
def near (c : Conf) (last cur : Nat) : Prop := last ≥ cur * c.lower % 2 ^ 64 ∧ last ≤ cur * c.upper % 2 ^ 64

instance (c : Conf) (last cur : Nat) : Decidable (near c last cur) := inferInstanceAs (Decidable (_ ∧ _))

/-- `ngx_live_segment_info_track_segment_created` (ngx_live_segment_info.c:170-237). -/
def created (c : Conf) (s : Track) (alloc : Bool) (idx b : Nat) : Res Track :=
  if c.bitrate = false ∧ c.gaps = false then .ok s
  else if s.lastIdx ≥ idx ∧ s.lastIdx ≠ invalid then .ok s
  else
    let s := { s with lastIdx := idx }
    if b = 0 ∧ c.gaps = false then .ok s
    else if near c s.lastBitrate (effective c b) then .ok s
    else do
      let s ← push s alloc { idx, bitrate := effective c b }
      .ok { s with lastBitrate := effective c b * 100 }

/-- `ngx_live_segment_info_track_copy` (ngx_live_segment_info.c:268-311), to a track that is new. -/
def copy (c : Conf) (src : Track) : Track := { init c with nodes := src.nodes, lastBitrate := src.lastBitrate }

/-- `ngx_live_segment_info_track_segment_free` (ngx_live_segment_info.c:314-354). -/
def freeLoop (min : Nat) : List Node → List Node
  | n :: m :: rest => if min < m.key then n :: m :: rest else freeLoop min (m :: rest)
  | ns => ns

def free (s : Track) (min : Nat) : Track := { s with nodes := freeLoop min s.nodes }

/-- `ngx_live_segment_info_lookup` (ngx_live_segment_info.c:390-435), on a tree that is not a leaf. -/
def lookup (ns : List Node) (x : Nat) : Tree → Res Nat
  | .leaf => .ub
  | .node l i r => match ns[i]? with
    | none => .ub
    | some n =>
      if x < n.key then
        match l with
        | .leaf => .ok (i - 1)
        | _ => lookup ns x l
      else
        match r with
        | .leaf => .ok i
        | _ => lookup ns x r

/-- The elements that are skipped (ngx_live_segment_info.c:464-467 and 623-626). -/
def skip (start : Nat) : List Elt → List Elt
  | x :: y :: l => if y.idx ≤ start then skip start (y :: l) else x :: y :: l
  | l => l

/-- The loop of `ngx_live_segment_info_segment_exists` (ngx_live_segment_info.c:469-491), over the elements of all nodes that
are left. -/
def scan (fin : Nat) : List Elt → Bool
  | [] => false
  | e :: l => if e.idx ≥ fin then false else if e.bitrate ≠ 0 then true else scan fin l

/-- `ngx_live_segment_info_segment_exists` (ngx_live_segment_info.c:438-492). -/
def segExists (s : Track) (t : Tree) (start fin : Nat) : Res Bool :=
  if s.initial ≠ 0 then .ok true
  else match t with
    | .leaf => .ok false
    | _ => do
      let i ← lookup s.nodes start t
      match s.nodes[i]? with
      | none => .ub
      | some n => .ok (scan fin (skip start n.elts ++ (s.nodes.drop (i + 1)).flatMap (·.elts)))

/-! ## Saving -/

/-- The end of a node that is not saved (ngx_live_segment_info.c:638-649). -/
def trim (max : Nat) (l : List Elt) : List Elt := (l.reverse.dropWhile fun e => decide (e.idx > max)).reverse

/-- The loop of `ngx_live_segment_info_write_index` (ngx_live_segment_info.c:636-668). -/
def writeNodes (max : Nat) : List (List Elt) → List Elt
  | [] => []
  | l :: ls => if (trim max l).isEmpty then [] else trim max l ++ writeNodes max ls

/-- `ngx_live_segment_info_write_index` (ngx_live_segment_info.c:599-675): the elements of the block, `none` when there is no
block. -/
def writeIndex (s : Track) (t : Tree) (sc : Scope) : Res (Option (List Elt)) :=
  match t with
  | .leaf => .ok none
  | _ => do
    let i ← lookup s.nodes sc.min t
    match s.nodes[i]? with
    | none => .ub
    | some n => .ok (some (writeNodes sc.max (skip sc.min n.elts :: (s.nodes.drop (i + 1)).map (·.elts))))

/-- The bytes of a block. -/
def encode (es : List Elt) : List UInt8 := es.flatMap fun e => le32 e.idx ++ le32 e.bitrate

/-- `ngx_live_segment_info_write_serve` (ngx_live_segment_info.c:829-907): what the packager gets. -/
def writeServe (s : Track) : List Elt :=
  match s.nodes.flatMap (·.elts) with
  | [] => [{ idx := 0, bitrate := s.initial }]
  | e :: es => if e.idx > 0 then { idx := 0, bitrate := s.initial } :: e :: es else e :: es

/-! ## Restoring -/

/-- The elements in the data; bytes after the last whole element are ignored (ngx_live_segment_info.c:703-707). -/
def decode : List UInt8 → List Elt
  | a :: b :: c :: d :: e :: f :: g :: h :: rest =>
    { idx := num [a, b, c, d], bitrate := num [e, f, g, h] } :: decode rest
  | _ => []

/-- The loops that copy elements to a node (ngx_live_segment_info.c:732-760 and 777-806): the elements copied, those left, the
lowest index allowed next, and if the next element is the first one. `keep` is whether a first element before the range is
copied. -/
def fill (max : Nat) (keep : Bool) : Nat → Nat → Bool → List Elt → Res (List Elt × List Elt × Nat × Bool)
  | _, min, first, [] => .ok ([], [], min, first)
  | room, min, first, e :: es =>
    if room = 0 then .ok ([], e :: es, min, first)
    else if e.idx < min ∧ first = false then .err
    else if e.idx < min ∧ keep = false then fill max keep room min false es
    else if e.idx > max then .err
    else do
      let (a, r, m, f) ← fill max keep (room - 1) (add32 e.idx 1) false es
      .ok (e :: a, r, m, f)

/-- The loop that adds nodes (ngx_live_segment_info.c:764-818); `alloc` is how many nodes the pool has. The first argument bounds
the recursion; running out is `ub`. -/
def newNodes (max : Nat) : Nat → Nat → List Node → Nat → Bool → List Elt → Res (List Node)
  | _, _, ns, _, _, [] => .ok ns
  | 0, _, _, _, _, _ :: _ => .ub
  | f + 1, alloc, ns, min, first, es =>
    if alloc = 0 then .err
    else do
      let (a, r, m, fi) ← fill max ns.isEmpty maxElts min first es
      match a with
      | [] => newNodes max f (alloc - 1) ns m fi r
      | e :: a => newNodes max f (alloc - 1) (ns ++ [{ key := e.idx, elts := e :: a }]) m fi r

/-- The elements appended to the last node (ngx_live_segment_info.c:714-762): the nodes, the elements left, and the lowest index
allowed next. -/
def readLast (s : Track) (sc : Scope) (es : List Elt) : Res (List Node × List Elt × Nat × Bool) :=
  match s.nodes.getLast? with
  | none => .ok (s.nodes, es, sc.min, true)
  | some n => match n.elts.getLast? with
    | none => .ub
    | some d =>
      if d.idx ≥ sc.min then .err
      else do
        let (a, r, m, f) ← fill sc.max false (maxElts - n.elts.length) sc.min true es
        .ok (setLast s.nodes { n with elts := n.elts ++ a }, r, m, f)

/-- The end of `ngx_live_segment_info_read_index` (ngx_live_segment_info.c:820-823). The product is one of 32 bit. -/
def setBitrate (s : Track) (ns : List Node) : Res Track :=
  match ns.getLast? with
  | none => .ub
  | some n => match n.elts.getLast? with
    | none => .ub
    | some e => .ok { s with nodes := ns, lastBitrate := e.bitrate * 100 % 2 ^ 32 }

/-- `ngx_live_segment_info_read_index` (ngx_live_segment_info.c:678-826), on the elements of the block. -/
def readElts (s : Track) (sc : Scope) (alloc : Nat) (es : List Elt) : Res Track := do
  let (ns, r, m, f) ← readLast s sc es
  let ns ← newNodes sc.max r.length alloc ns m f r
  setBitrate s ns

/-- `ngx_live_segment_info_read_index` (ngx_live_segment_info.c:678-826) on the bytes of a block. `hdr` is what the header of the
block is longer than the one known here, `none` when it is shorter (ngx_persist_read.c:195-225). -/
def readIndex (s : Track) (sc : Scope) (alloc : Nat) (bytes : List UInt8) (hdr : Option Nat) : Res Track :=
  match hdr with
  | none => .err
  | some k =>
    if bytes.length < k then .err
    else if (bytes.drop k).length < 8 then .ok s
    else readElts s sc alloc (decode (bytes.drop k))

/-! ## The packager -/

/-- `ngx_pckg_segment_info_iter_t` (ngx_pckg_segment_info.h): the elements left, and the bitrate. -/
structure PIter where
  rest : List Elt
  bitrate : Nat
deriving Repr, DecidableEq

/-- `ngx_pckg_segment_info_iter_reset` (ngx_pckg_segment_info.c:6-19), of a track that is not subtitles. -/
def pinit (es : List Elt) : PIter := { rest := es, bitrate := noBitrate }

/-- The loop over elements up to an index (ngx_pckg_segment_info.c:26-29 and 59-62). -/
def padvance (x : Nat) : List Elt → Nat → PIter
  | [], b => { rest := [], bitrate := b }
  | e :: es, b => if e.idx ≤ x then padvance x es e.bitrate else { rest := e :: es, bitrate := b }

/-- `ngx_pckg_segment_info_iter_get` (ngx_pckg_segment_info.c:22-32). -/
def pget (it : PIter) (x : Nat) : Nat × PIter :=
  let it' := padvance x it.rest it.bitrate
  (it'.bitrate, it')

/-- The second loop of `ngx_pckg_segment_info_iter_gap_count` (ngx_pckg_segment_info.c:64-82). -/
def pgaps (last : Nat) : Nat → Nat → List Elt → Nat → Nat × PIter
  | start, b, [], n => (if b = 0 then n + (last - start) else n, { rest := [], bitrate := b })
  | start, b, e :: es, n =>
    if e.idx ≥ last then (if b = 0 then n + (last - start) else n, { rest := e :: es, bitrate := b })
    else pgaps last e.idx e.bitrate es (if b = 0 then n + (e.idx - start) else n)

/-- `ngx_pckg_segment_info_iter_gap_count` (ngx_pckg_segment_info.c:50-85). -/
def pgapCount (it : PIter) (first last : Nat) : Nat × PIter :=
  let it' := padvance first it.rest it.bitrate
  pgaps last first it'.bitrate it'.rest 0

/-- `ngx_pckg_segment_info_iter_has_bitrate` (ngx_pckg_segment_info.c:35-47) and `ngx_pckg_segment_info_has_bitrate`
(ngx_pckg_segment_info.c:165-177), over the tracks of the channel. -/
def phas (it : PIter) : Bool := it.rest.any fun e => e.bitrate != 0 && e.bitrate != noBitrate

def mhas (its : List PIter) : Bool := its.any phas

/-- `ngx_pckg_segment_info_get` (ngx_pckg_segment_info.c:128-162). Each track has its estimator, a function of the bitrate for the
duration of the segment (`media_bitrate_estimate`, media_format.h:19-20). -/
def mget (x : Nat) : List PIter → List (Nat → Nat) → Nat → Nat × List PIter
  | it :: its, est :: ests, acc =>
    let g := pget it x
    if g.1 = noBitrate then (noBitrate, g.2 :: its)
    else
      let r := mget x its ests (if g.1 = 0 then acc else (acc + est g.1) % 2 ^ 32)
      (r.1, g.2 :: r.2)
  | its, _, acc => (acc, its)

/-- `ngx_pckg_segment_info_min_gap_count` (ngx_pckg_segment_info.c:180-201). -/
def mgaps (first last : Nat) : List PIter → Nat → Nat × List PIter
  | [], acc => (acc, [])
  | it :: its, acc =>
    let g := pgapCount it first last
    let r := mgaps first last its (if acc > g.1 then g.1 else acc)
    (r.1, g.2 :: r.2)

/-- How many gap tags room is made for (ngx_http_pckg_m3u8.c:1509-1550), over the periods with their first segment and their
count. -/
def gapRoom : List (Nat × Nat) → List PIter → Nat → Nat
  | [], _, total => total
  | (first, count) :: ps, its, total =>
    let g := mgaps first ((first + count) % 2 ^ 32) its (2 ^ 32 - 1)
    gapRoom ps g.2 ((total + g.1) % 2 ^ 32)

/-- How many gap tags are written for segments (ngx_http_pckg_m3u8.c:1839-1886), with the estimators of the tracks for each one. -/
def gapTags (ests : Nat → List (Nat → Nat)) : List Nat → List PIter → Nat → Nat × List PIter
  | [], its, n => (n, its)
  | x :: xs, its, n =>
    let g := mget x its (ests x) 0
    gapTags ests xs g.2 (if g.1 = 0 then n + 1 else n)

end Verif.SegmentInfo
