import Verif.SegmentList

/-!
# Model of nginx-live-module/src/ngx_live_timeline.c

A channel has one segment list (`Verif.SegmentList`) and timelines. The queue of periods of a timeline is a list. A pointer
to a period is a number that the period got when it was created (`pid`); following the pointer to a period that is not in
the queue any more is `ub`. An iterator of the segment list is as in `Verif.SegmentList`, but its node is counted from the
first node that ever was in the list, so it keeps its meaning when nodes are freed; using an iterator whose node was freed
is `ub`. Counters and durations that are decremented wrap like in C (`sub32`, `sub64`). Not modelled: failures to allocate,
logging, JSON, publishing of events, `last_accessed`, the timer of the cleanup, and overflow of sums of times.
-/

namespace Verif.Timeline

open Verif.SegmentList (SL Iter Tree add32 sub32 setLast)

/-- The value of an unsigned 64 bit difference. -/
def sub64 (a b : Nat) : Nat := if b ≤ a then a - b else a + 2 ^ 64 - b

/-- `NGX_LIVE_INVALID_SEGMENT_INDEX` (ngx_live_channel.h:26). -/
def invalidIdx : Nat := 2 ^ 32 - 1

/-- The segment list of the channel; `base` nodes were freed. -/
structure Segs where
  sl : SL
  base : Nat
deriving Repr, DecidableEq

def Segs.rel (q : Segs) (it : Iter) : Iter := { it with node := it.node - q.base }
def Segs.abs (q : Segs) (it : Iter) : Iter := { it with node := it.node + q.base }

/-- `ngx_live_segment_iter_get_one` (ngx_live_segment_list.c:993-1001). -/
def Segs.getOne (q : Segs) (it : Iter) : Res (Nat × Iter) :=
  if it.node < q.base then .ub
  else do
    let (d, i) ← SegmentList.getOne q.sl (q.rel it)
    .ok (d, q.abs i)

/-- `ngx_live_segment_iter_peek` (ngx_live_segment_list.c:984-990). -/
def Segs.peek (q : Segs) (it : Iter) : Res (Nat × Iter) :=
  if it.node < q.base then .ub
  else do
    let (d, i) ← SegmentList.peek q.sl (q.rel it)
    .ok (d, q.abs i)

/-- `ngx_live_segment_iter_get_element` (ngx_live_segment_list.c:1004-1016). -/
def Segs.getElement (q : Segs) (it : Iter) : Res (SegmentList.Elt × Iter) :=
  if it.node < q.base then .ub
  else do
    let (e, i) ← SegmentList.getElement q.sl (q.rel it)
    .ok (e, q.abs i)

/-- `ngx_live_segment_iter_last` (ngx_live_segment_list.c:946-959). -/
def Segs.last (q : Segs) : Res Iter := do
  let i ← SegmentList.iterLast q.sl
  .ok (q.abs i)

/-- `ngx_live_segment_list_free_nodes` (ngx_live_segment_list.c:221-262). -/
def Segs.free (q : Segs) (min : Nat) : Segs :=
  let sl := SegmentList.freeNodes q.sl min
  { sl, base := q.base + (q.sl.nodes.length - sl.nodes.length) }

/-! ## Types -/

/-- `ngx_live_timeline_conf_t` (ngx_live_timeline.h:24-32). -/
structure Conf where
  start : Int
  fin : Int
  gap : Int
  maxDur : Nat
  maxSegs : Nat
  active : Bool
  noTrunc : Bool
deriving Repr, DecidableEq

/-- `ngx_live_timeline_manifest_conf_t` (ngx_live_timeline.h:35-41). `endList` 0 is `ngx_live_end_list_off`;
`expiry_threshold` is not modelled. -/
structure MConf where
  maxDur : Nat
  maxSegs : Nat
  tdSegs : Nat
  endList : Nat
deriving Repr, DecidableEq

/-- `ngx_live_period_t` (ngx_live_timeline.h:46-55). -/
structure Per where
  pid : Nat
  key : Nat
  count : Nat
  time : Int
  dur : Nat
  corr : Int
  it : Iter
deriving Repr, DecidableEq

/-- `ngx_live_manifest_timeline_t` (ngx_live_timeline.h:58-80). `next` is `first_period.queue.next`, `none` for the
sentinel. -/
structure Man where
  conf : MConf
  avail : Int
  first : Per
  next : Option Nat
  firstInitTime : Int
  firstInitIdx : Nat
  firstIdx : Nat
  target : Nat
  targetSegs : Nat
  sequence : Nat
  lastMod : Int
  lastDurs : List Nat
  dur : Nat
  segCount : Nat
  perCount : Nat
deriving Repr, DecidableEq

/-- `ngx_live_timeline_t` (ngx_live_timeline.h:83-113); `nid` is the `pid` of the next period that is created. -/
structure Tl where
  id : Nat
  conf : Conf
  periods : List Per
  firstInitTime : Int
  lastTime : Int
  lastCreated : Int
  man : Man
  removed : Nat
  dur : Nat
  segCount : Nat
  perCount : Nat
  nid : Nat
deriving Repr, DecidableEq

/-- `ngx_live_timeline_channel_ctx_t` (ngx_live_timeline.c:33-45), and what is used of the channel: `next_segment_index`,
`min_segment_index`, `timescale` and `active`. -/
structure Ch where
  segs : Segs
  tls : List Tl
  lastId : Nat
  lastMid : Int
  truncate : Nat
  lastIdx : Nat
  pend : Bool
  next : Nat
  minIdx : Nat
  scale : Nat
  active : Bool
deriving Repr, DecidableEq

/-- `ngx_live_timeline_channel_init` (ngx_live_timeline.c:2103-2140). -/
def init (next scale : Nat) : Ch :=
  { segs := { sl := SegmentList.init, base := 0 }, tls := [], lastId := 0, lastMid := 0, truncate := 0, lastIdx := invalidIdx,
    pend := false, next, minIdx := 0, scale, active := false }

/-! ## Periods -/

/-- `ngx_live_period_pop_segment` (ngx_live_timeline.c:226-242). -/
def pop (q : Segs) (p : Per) : Res (Nat × Per) :=
  if p.count ≤ 0 then .ok (0, p)
  else do
    let (d, it) ← q.getOne p.it
    .ok (d, { p with count := p.count - 1, time := p.time + d, dur := sub64 p.dur d, key := p.key + 1, it })

/-- The period a pointer points at, and the pointer to the one that follows. -/
def findPer : List Per → Nat → Option (Per × Option Nat)
  | [], _ => none
  | p :: ps, i => if p.pid = i then some (p, ps.head?.map (·.pid)) else findPer ps i

/-! ## The manifest timeline -/

/-- `ngx_live_manifest_timeline_remove_segment` (ngx_live_timeline.c:343-377). -/
def manRemove (q : Segs) (ps : List Per) (now : Int) (m : Man) : Res Man := do
  let (d, f) ← pop q m.first
  let m := { m with first := f, segCount := sub32 m.segCount 1, dur := sub64 m.dur d, lastMod := now }
  if f.count > 0 then .ok m
  else
    let m := { m with perCount := sub32 m.perCount 1, firstIdx := add32 m.firstIdx 1 }
    match m.next with
    | none => .ok { m with first := { f with key := invalidIdx } }
    | some i => match findPer ps i with
      | none => .ub
      | some (p, next) => .ok { m with first := p, next, firstInitTime := p.time, firstInitIdx := p.key }

/-- The loop of `ngx_live_manifest_timeline_remove_segments` (ngx_live_timeline.c:380-408). The first argument bounds the
recursion: it is the number of segments, of which every turn removes one. -/
def manLoop (q : Segs) (ps : List Per) (now : Int) (bc bd : Nat) : Nat → Man → Res Man
  | 0, m => .ok m
  | k + 1, m =>
    if m.segCount ≤ 0 then .ok m
    else if (m.segCount + bc) % 2 ^ 32 ≤ m.conf.maxSegs ∧ (m.dur + bd) % 2 ^ 64 ≤ m.conf.maxDur then .ok m
    else if m.conf.endList = 0 then do
      let (d, it) ← q.peek m.first.it
      let m := { m with first := { m.first with it } }
      if m.dur < (m.target * 3 % 2 ^ 32 + d) % 2 ^ 32 then .ok m
      else do
        let m ← manRemove q ps now m
        manLoop q ps now bc bd k m
    else do
      let m ← manRemove q ps now m
      manLoop q ps now bc bd k m

/-- `ngx_live_manifest_timeline_add_first_period` (ngx_live_timeline.c:411-436). -/
def manAddFirst (q : Segs) (m : Man) (time : Int) (idx : Nat) : Res Man := do
  let it ← q.last
  .ok { m with first := { m.first with key := idx, time, dur := 0, count := 0, it }, next := none,
               avail := if m.avail = 0 then time else m.avail,
               firstInitTime := time, firstInitIdx := idx, perCount := 1 }

/-- `ngx_live_manifest_timeline_add_period` (ngx_live_timeline.c:439-456). -/
def manAddPeriod (q : Segs) (m : Man) (p : Per) : Res Man :=
  if m.perCount = 0 then manAddFirst q m p.time p.key
  else .ok { m with next := if m.perCount = 1 then some p.pid else m.next, perCount := m.perCount + 1 }

/-- `ngx_live_manifest_timeline_add_segment` (ngx_live_timeline.c:459-471). -/
def manAddSeg (m : Man) (dur : Nat) (now : Int) : Man :=
  { m with first := if m.perCount = 1 then { m.first with count := m.first.count + 1, dur := m.first.dur + dur } else m.first,
           segCount := m.segCount + 1, dur := m.dur + dur, lastMod := now }

/-- `ngx_live_manifest_timeline_post_add_segment` (ngx_live_timeline.c:474-491). -/
def manPostAdd (m : Man) (dur : Nat) : Man :=
  let grow := m.conf.tdSegs ≤ 0 ∨ m.conf.tdSegs > m.targetSegs
  { m with targetSegs := if grow then m.targetSegs + 1 else m.targetSegs,
           target := if grow ∧ dur > m.target then dur else m.target,
           lastDurs := m.lastDurs.set (m.sequence % 3) dur }

/-- `ngx_live_manifest_timeline_truncate` (ngx_live_timeline.c:494-503); the first argument is as in `manLoop`. -/
def manTruncate (q : Segs) (ps : List Per) (now : Int) (idx : Nat) : Nat → Man → Res Man
  | 0, m => .ok m
  | k + 1, m =>
    if m.segCount > 0 ∧ m.first.key ≤ idx then do
      let m ← manRemove q ps now m
      manTruncate q ps now idx k m
    else .ok m

/-! ## Timelines -/

/-- `ngx_live_timeline_conf_validate` (ngx_live_timeline.c:554-608). -/
def validate (c : Conf) (m : MConf) : Res (Conf × MConf) :=
  let c := { c with fin := if c.fin = 0 then 2 ^ 63 - 1 else c.fin }
  if c.start ≥ c.fin then .err
  else
    let c := { c with maxSegs := if c.maxSegs = 0 then 2 ^ 32 - 1 else c.maxSegs }
    if m.maxSegs ≠ 0 ∧ m.maxSegs > c.maxSegs then .err
    else
      let m := { m with maxSegs := if m.maxSegs = 0 then c.maxSegs else m.maxSegs }
      let c := { c with maxDur := if c.maxDur = 0 then 2 ^ 64 - 1 else c.maxDur }
      if m.maxDur ≠ 0 ∧ m.maxDur > c.maxDur then .err
      else if m.endList ≥ 3 then .err
      else .ok (c, { m with maxDur := if m.maxDur = 0 then c.maxDur else m.maxDur })

def noIter : Iter := ⟨0, 0, 0⟩

/-- The memory of a new period is zero (`ngx_block_pool_calloc`, ngx_live_timeline.c:666). -/
def noPer : Per := { pid := 0, key := invalidIdx, count := 0, time := 0, dur := 0, corr := 0, it := noIter }

/-- `ngx_live_timeline_create` (ngx_live_timeline.c:634-715), when there is no timeline of the name yet. -/
def create (ch : Ch) (c : Conf) (m : MConf) (now : Int) : Res Ch := do
  let (c, m) ← validate c m
  let c := { c with active := if c.fin ≤ ch.lastMid then false else c.active }
  let man : Man := { conf := m, avail := 0, first := noPer, next := none, firstInitTime := 0, firstInitIdx := 0, firstIdx := 0,
                     target := 0, targetSegs := 0, sequence := ch.next, lastMod := now, lastDurs := [0, 0, 0], dur := 0,
                     segCount := 0, perCount := 0 }
  let t : Tl := { id := ch.lastId + 1, conf := c, periods := [], firstInitTime := 0, lastTime := 0, lastCreated := 0, man,
                  removed := 0, dur := 0, segCount := 0, perCount := 0, nid := 0 }
  .ok { ch with tls := ch.tls ++ [t], lastId := ch.lastId + 1 }

/-- `ngx_live_timeline_free` (ngx_live_timeline.c:718-759). -/
def free (ch : Ch) (id : Nat) : Ch := { ch with tls := ch.tls.filter (·.id ≠ id) }

/-- Applies a change to the timeline with an id. -/
def onTl (id : Nat) (f : Tl → Res Tl) : List Tl → Res (List Tl)
  | [] => .ok []
  | t :: ts => if t.id = id then do
      let t' ← f t
      .ok (t' :: ts)
    else do
      let ts' ← onTl id f ts
      .ok (t :: ts')

/-- `ngx_live_timeline_update` (ngx_live_timeline.c:993-1033). -/
def update (ch : Ch) (id : Nat) (c : Conf) (m : MConf) : Res Ch := do
  let (c, m) ← validate c m
  let c := { c with active := if c.fin ≤ ch.lastMid then false else c.active }
  let ts ← onTl id (fun t => .ok { t with conf := c, man := { t.man with conf := m } }) ch.tls
  .ok { ch with tls := ts }

/-- `ngx_live_timeline_remove_segment` (ngx_live_timeline.c:1146-1180). -/
def remove1 (q : Segs) (t : Tl) : Res Tl :=
  match t.periods with
  | [] => .ub
  | p :: ps => do
    let (d, p') ← pop q p
    let t := { t with segCount := sub32 t.segCount 1, dur := sub64 t.dur d, removed := t.removed + d }
    if p'.count > 0 then .ok { t with periods := p' :: ps }
    else .ok { t with periods := ps, perCount := sub32 t.perCount 1,
                      firstInitTime := match ps with
                        | [] => t.firstInitTime
                        | n :: _ => n.time }

/-- The loop of `ngx_live_timeline_remove_segments` (ngx_live_timeline.c:1196-1214); the first argument is as in `manLoop`. -/
def tlLoop (q : Segs) (bc bd : Nat) : Nat → Tl → Res Tl
  | 0, t => .ok t
  | k + 1, t =>
    if t.periods.isEmpty then .ok t
    else if t.segCount ≤ t.man.segCount then .ok t
    else if (t.segCount + bc) % 2 ^ 32 ≤ t.conf.maxSegs ∧ (t.dur + bd) % 2 ^ 64 ≤ t.conf.maxDur then .ok t
    else do
      let t ← remove1 q t
      tlLoop q bc bd k t

/-- The smaller of the first index of the periods and `min` (ngx_live_timeline.c:1216-1220, 1240-1247). -/
def minOf (t : Tl) (min : Nat) : Nat :=
  match t.periods with
  | [] => min
  | p :: _ => if p.key < min then p.key else min

/-- `ngx_live_timeline_remove_segments` (ngx_live_timeline.c:1183-1225). -/
def removeSegs (q : Segs) (now : Int) (bc bd : Nat) (t : Tl) (min : Nat) : Res (Tl × Nat) := do
  let man ← manLoop q t.periods now bc bd t.man.segCount t.man
  let t := { t with man }
  let t ← tlLoop q bc bd t.segCount t
  .ok (t, minOf t min)

/-- `ngx_live_timeline_inactive_remove_segments` (ngx_live_timeline.c:1228-1262). -/
def inactiveRemove (q : Segs) (now : Int) (scale : Nat) (t : Tl) (min : Nat) : Res (Tl × Nat) :=
  if now ≤ t.lastCreated ∨ t.dur ≤ 0 then .ok (t, minOf t min)
  else
    let bd := (now - t.lastCreated).toNat * scale % 2 ^ 64
    let bc := bd * t.segCount % 2 ^ 64 / t.dur % 2 ^ 32
    removeSegs q now bc bd t min

/-- `ngx_live_timeline_get` (ngx_live_timeline.c:762-784): a request for the timeline. -/
def get (ch : Ch) (id : Nat) (now : Int) : Res Ch := do
  let ts ← onTl id (fun t =>
    if ¬t.conf.active ∨ ¬ch.active then do
      let (t, _) ← inactiveRemove ch.segs now ch.scale t 0
      .ok t
    else .ok t) ch.tls
  .ok { ch with tls := ts }

/-- `ngx_live_timeline_add_segment` (ngx_live_timeline.c:1265-1280); the period is the last one. -/
def tlAddSeg (t : Tl) (dur : Nat) (now : Int) : Res Tl :=
  match t.periods.getLast? with
  | none => .ub
  | some p => .ok { t with periods := setLast t.periods { p with count := p.count + 1, dur := p.dur + dur },
                           segCount := t.segCount + 1, dur := t.dur + dur, man := manAddSeg t.man dur now }

/-- Whether a segment begins a period in a timeline (ngx_live_timeline.c:1776-1796). -/
def newPeriod (t : Tl) (time : Int) (idx : Nat) (force : Bool) : Bool :=
  match t.periods.getLast? with
  | none => true
  | some p => force || decide (time ≠ p.time + p.dur) || decide (idx ≠ p.key + p.count)

/-- The correction of a new period (ngx_live_timeline.c:1810-1816). -/
def corrOf (t : Tl) (time : Int) : Int :=
  if t.conf.gap = -1 ∨ t.lastTime = 0 then 0 else t.lastTime + t.conf.gap - time

/-- The period for a segment (ngx_live_timeline.c:1776-1830). -/
def openPeriod (q : Segs) (t : Tl) (time : Int) (idx : Nat) (force : Bool) : Res Tl :=
  let isNew := newPeriod t time idx force
  let t := { t with firstInitTime := if t.periods.isEmpty then time else t.firstInitTime }
  if isNew then do
    let it ← q.last
    let p : Per := { pid := t.nid, key := idx, count := 0, time, dur := 0, it,
                     corr := corrOf t time }
    let man ← manAddPeriod q t.man p
    .ok { t with periods := t.periods ++ [p], perCount := t.perCount + 1, man, nid := t.nid + 1 }
  else if t.man.perCount = 0 then do
    let man ← manAddFirst q t.man time idx
    .ok { t with man }
  else .ok t

/-- The correction of the last period. -/
def lastCorr (t : Tl) : Int := match t.periods.getLast? with
  | none => 0
  | some p => p.corr

/-- What `ngx_live_timelines_add_segment` does with a timeline that gets the segment (ngx_live_timeline.c:1776-1854). The
flag tells whether the segment is in the manifest. -/
def addTl (q : Segs) (now : Int) (time : Int) (idx dur : Nat) (force : Bool) (t : Tl) (min : Nat) : Res (Tl × Nat × Bool) := do
  let t ← openPeriod q t time idx force
  let t := { t with lastTime := time + dur + lastCorr t }
  let t ← tlAddSeg t dur now
  let (t, min) ← removeSegs q now 0 0 t min
  if t.man.segCount ≤ 0 then .ok (t, min, false)
  else
    let man := if dur > 0 then manPostAdd t.man dur else t.man
    .ok ({ t with man := { man with sequence := add32 man.sequence 1 }, lastCreated := now }, min, true)

/-- The part of the loop over the timelines for one of them (ngx_live_timeline.c:1758-1855). -/
def addOne (q : Segs) (now : Int) (scale : Nat) (mid time : Int) (idx dur : Nat) (force : Bool) (t : Tl) (min : Nat) : Res (Tl × Nat × Bool) :=
  if ¬t.conf.active ∨ mid < t.conf.start then do
    let (t, min) ← inactiveRemove q now scale t min
    .ok (t, min, false)
  else if mid ≥ t.conf.fin then do
    let (t, min) ← inactiveRemove q now scale { t with conf := { t.conf with active := false } } min
    .ok (t, min, false)
  else addTl q now time idx dur force t min

/-- The loop over the timelines (ngx_live_timeline.c:1754-1855). -/
def addAll (q : Segs) (now : Int) (scale : Nat) (mid time : Int) (idx dur : Nat) (force : Bool) : List Tl → Nat → Res (List Tl × Nat × Bool)
  | [], min => .ok ([], min, false)
  | t :: ts, min => do
    let (t, min, ex) ← addOne q now scale mid time idx dur force t min
    let (ts, min, exs) ← addAll q now scale mid time idx dur force ts min
    .ok (t :: ts, min, ex || exs)

/-- `ngx_live_timelines_free_old_segments` (ngx_live_timeline.c:1688-1706). -/
def freeOld (ch : Ch) (min : Nat) : Ch := { ch with minIdx := min, segs := ch.segs.free min }

/-- `ngx_live_timelines_add_segment` (ngx_live_timeline.c:1709-1867). The result is false for `NGX_DONE`. -/
def addSeg (ch : Ch) (now time : Int) (idx dur : Nat) (force : Bool) : Res (Ch × Bool) :=
  if ch.pend then .err
  else do
    let sl ← SegmentList.add ch.segs.sl true idx time dur
    let segs := { ch.segs with sl }
    let mid := time + (dur / 2 : Nat)
    let (tls, min, ex) ← addAll segs now ch.scale mid time idx dur force ch.tls ch.next
    .ok (freeOld { ch with segs, lastIdx := idx, pend := dur = SegmentList.pending, lastMid := mid, tls } min, ex)

/-- The iterator of a period whose last segment got its duration (ngx_live_timeline.c:1895-1902, 1912-1915). -/
def refresh (q : Segs) (p : Per) : Res Iter := if p.count = 1 then q.last else .ok p.it

/-- The manifest when the last segment got its duration (ngx_live_timeline.c:1908-1918). -/
def updMan (q : Segs) (dur : Nat) (m : Man) : Res Man :=
  if m.perCount = 1 then do
    let it ← refresh q m.first
    .ok { m with first := { m.first with dur := m.first.dur + dur, it }, dur := m.dur + dur }
  else .ok { m with dur := m.dur + dur }

/-- `ngx_live_timeline_update_last_segment` (ngx_live_timeline.c:1870-1933). -/
def updTl (q : Segs) (lastIdx dur : Nat) (t : Tl) : Res Tl :=
  match t.periods.getLast? with
  | none => .ok t
  | some p =>
    if sub32 (p.key + p.count) 1 ≠ lastIdx then .ok t
    else do
      let it ← refresh q p
      let t := { t with periods := setLast t.periods { p with dur := p.dur + dur, it }, dur := t.dur + dur,
                        lastTime := t.lastTime + (dur : Nat) }
      if t.man.segCount > 0 then do
        let m ← updMan q dur t.man
        .ok { t with man := manPostAdd m dur }
      else .ok t

def updAll (q : Segs) (lastIdx dur : Nat) : List Tl → Res (List Tl)
  | [] => .ok []
  | t :: ts => do
    let t ← updTl q lastIdx dur t
    let ts ← updAll q lastIdx dur ts
    .ok (t :: ts)

/-- `ngx_live_timelines_update_last_segment` (ngx_live_timeline.c:1936-1977). -/
def updateLast (ch : Ch) (dur : Nat) : Res Ch :=
  if ¬ch.pend then .err
  else do
    let sl ← SegmentList.updateLast ch.segs.sl dur
    let segs := { ch.segs with sl }
    let tls ← updAll segs ch.lastIdx dur ch.tls
    .ok { ch with segs, tls, pend := false }

/-- The loop of `ngx_live_timeline_truncate` (ngx_live_timeline.c:1669-1682); the first argument is as in `manLoop`. -/
def truncLoop (q : Segs) (idx : Nat) : Nat → Tl → Res Tl
  | 0, t => .ok t
  | k + 1, t => match t.periods with
    | [] => .ok t
    | p :: _ => if p.key > idx then .ok t
      else do
        let t ← remove1 q t
        truncLoop q idx k t

/-- `ngx_live_timeline_truncate` (ngx_live_timeline.c:1655-1683). -/
def truncTl (q : Segs) (now : Int) (idx : Nat) (t : Tl) : Res Tl :=
  if t.conf.noTrunc then .ok t
  else do
    let man ← manTruncate q t.periods now idx t.man.segCount t.man
    let t := { t with man }
    truncLoop q idx t.segCount t

def truncAll (q : Segs) (now : Int) (idx : Nat) : List Tl → Res (List Tl)
  | [] => .ok []
  | t :: ts => do
    let t ← truncTl q now idx t
    let ts ← truncAll q now idx ts
    .ok (t :: ts)

/-- `ngx_live_timelines_truncate` (ngx_live_timeline.c:1980-2003). -/
def truncate (ch : Ch) (now : Int) (idx : Nat) : Res Ch := do
  let tls ← truncAll ch.segs now idx ch.tls
  .ok { ch with tls, truncate := idx }

def cleanAll (q : Segs) (now : Int) (scale : Nat) : List Tl → Nat → Res (List Tl × Nat)
  | [], min => .ok ([], min)
  | t :: ts, min => do
    let (t, min) ← inactiveRemove q now scale t min
    let (ts, min) ← cleanAll q now scale ts min
    .ok (t :: ts, min)

/-- `ngx_live_timelines_cleanup` (ngx_live_timeline.c:2046-2091). -/
def cleanup (ch : Ch) (now : Int) : Res Ch :=
  if ch.active then .ok ch
  else do
    let (tls, min) ← cleanAll ch.segs now ch.scale ch.tls ch.next
    .ok (freeOld { ch with tls } min)

end Verif.Timeline
