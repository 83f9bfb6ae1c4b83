import Verif.TimelineCh

/-!
# Timelines: what is served to the packager

Model of the functions of ngx_live_timeline.c that write the timeline block of a KSMP response, and of the part of
ngx_http_live_ksmp_module.c that picks the last segment. The packager numbers the segments from the sequence of the header, and the
periods from the index of the first period.
-/

namespace Verif.Timeline

open Verif.SegmentList (SL Iter Seg Inv seq segs ahead Elt Tree sub32 add32)

/-! ## Model -/

/-- The fields `has_pending_segment` and `pending_index` of a track (ngx_live_channel.h:192, 201). -/
structure Trk where
  has : Bool
  pidx : Nat
deriving Repr, DecidableEq

/-- `ngx_ksmp_timeline_header_t` (ngx_ksmp.h:123-139). -/
structure Hdr where
  avail : Int
  firstIdx : Nat
  initTime : Int
  initIdx : Nat
  seq : Nat
  lastMod : Int
  target : Nat
  endList : Bool
  perCount : Nat
  skipPer : Nat
  skipSegs : Nat
  lastSkip : Nat
deriving Repr, DecidableEq

/-- `ngx_ksmp_period_header_t` (ngx_ksmp.h:142-146), with the elements that follow it. -/
structure SPer where
  time : Int
  idx : Nat
  elts : List Elt
deriving Repr, DecidableEq

/-- `ngx_live_timeline_serve_end_list` (ngx_live_timeline.c:3200-3257); `endList` 2 is `ngx_live_end_list_forced`. A
timeline without periods is undefined behaviour. -/
def endList (ch : Ch) (t : Tl) (trk : Option Trk) (max : Nat) : Res Bool :=
  if t.man.conf.endList = 0 then .ok false
  else match t.periods.getLast? with
    | none => .ub
    | some p =>
      let last := sub32 (p.key + p.count) 1
      if t.man.conf.endList = 2 then .ok (¬(max < sub32 ch.next 1 ∧ max < last))
      else if last > max then .ok false
      else if ch.pend ∧ last = ch.lastIdx then .ok false
      else .ok (¬ last ≥ add32 ch.next (match trk with
        | some k => k.pidx
        | none => 0))

/-- The segment is pending on the track (ngx_live_timeline.c:3562-3566). -/
def pendingOn (next : Nat) (trk : Option Trk) (idx : Nat) : Bool :=
  match trk with
  | none => false
  | some k => k.has && decide (idx ≥ add32 next k.pidx)

/-- The loop that writes `left` segments from an iterator (ngx_live_timeline.c:3584-3606); the first argument bounds the
number of elements. -/
def writeElts (q : Segs) : Nat → Nat → Iter → Res (List Elt)
  | 0, _, _ => .ub
  | k + 1, left, it => do
    let (e, it) ← q.getElement it
    if e.count ≥ left then .ok [⟨e.dur, left⟩]
    else do
      let es ← writeElts q k (left - e.count) it
      .ok (e :: es)

/-- The loop of `ngx_live_timeline_serve_write_periods` (ngx_live_timeline.c:3534-3620), and its end (:3622-3638). -/
def writePers (q : Segs) (next : Nat) (trk : Option Trk) (max : Nat) : List Per → Res (List SPer)
  | [] => .ok []
  | p :: ps =>
    if p.key > max then .ok []
    else
      let last := sub32 (p.key + p.count) 1
      if last ≥ max ∧ pendingOn next trk max then
        if max ≤ p.key then .ok [⟨p.time, p.key, [⟨0, 1⟩]⟩]
        else do
          let es ← writeElts q (max - p.key) (max - p.key) p.it
          .ok [⟨p.time, p.key, es ++ [⟨0, 1⟩]⟩]
      else do
        let last := if last ≥ max then max else last
        let es ← writeElts q (last - p.key + 1) (last - p.key + 1) p.it
        let rest ← writePers q next trk max ps
        .ok (⟨p.time, p.key, es⟩ :: rest)

/-- The header of `ngx_live_timeline_serve_write` (ngx_live_timeline.c:3277-3306); `segDur` is the segment duration of the
channel. -/
def header (ch : Ch) (t : Tl) (segDur : Nat) (trk : Option Trk) (max : Nat) : Res Hdr := do
  let e ← endList ch t trk max
  .ok { avail := t.man.avail, firstIdx := t.man.firstIdx, initTime := t.man.firstInitTime, initIdx := t.man.firstInitIdx,
        seq := sub32 t.man.sequence t.man.segCount, lastMod := t.man.lastMod,
        target := if t.man.target ≤ 0 then segDur else t.man.target, endList := e, perCount := 0, skipPer := 0, skipSegs := 0,
        lastSkip := invalidIdx }

/-- The last segment of a request for a whole timeline (ngx_http_live_ksmp_module.c:1646-1690); `param` is the parameter
`max_segment_index`, and `pending` the flag `NGX_KSMP_FLAG_MAX_PENDING`. Fails when there is no segment to show. A request for
a timeline whose manifest is empty fails before (ngx_http_live_ksmp_module.c:1214-1227). -/
def maxIndex (ch : Ch) (t : Tl) (trk : Option Trk) (pending : Bool) (param : Nat) : Res Nat :=
  if t.man.segCount ≤ 0 then .err
  else match t.periods.getLast?, t.periods.head? with
    | some p, some f =>
      let max := sub32 (p.key + p.count) 1
      let next := match trk with
        | none => ch.next
        | some k => if t.man.conf.endList ≠ 2 then add32 ch.next (k.pidx + k.has.toNat) else ch.next
      let limit := trk.isSome || !pending
      if limit ∧ next ≤ f.key then .err
      else
        let max := if limit ∧ max ≥ next then sub32 next 1 else max
        if param < max then
          if param < f.key then .err else .ok param
        else .ok max
    | _, _ => .ub

/-- `ngx_live_timeline_serve_write` and `ngx_live_timeline_serve_write_periods` (ngx_live_timeline.c:3259-3328, 3491-3638),
when no segments are skipped. -/
def serve (ch : Ch) (t : Tl) (segDur : Nat) (trk : Option Trk) (max : Nat) : Res (Hdr × List SPer) := do
  let h ← header ch t segDur trk max
  let ps ← writePers ch.segs ch.next trk max (t.man.first :: chain t.periods t.man.next)
  .ok ({ h with perCount := ps.length }, ps)

/-! ## What the packager makes of it -/

/-- The segments of a response. -/
def SPer.segs (p : SPer) : List Seg := seq p.idx p.time (SegmentList.durs p.elts)

/-- Indexes, with the index of their period. -/
def srows : Nat → List SPer → List (Nat × Nat)
  | _, [] => []
  | d, p :: ps => p.segs.map (fun g => (g.idx, d)) ++ srows (d + 1) ps

/-- Media sequence and discontinuity sequence numbers of the segments of a response. -/
def clientRows (h : Hdr) (ps : List SPer) : List Row := numbered h.seq (srows h.firstIdx ps)

/-! ## Elements -/

/-- The elements written are the durations that follow the iterator. -/
theorem writeElts_spec {mono : Bool} {q : Segs} (h : Inv mono q.sl) : ∀ (k left : Nat) (it : Iter), 0 < left → left ≤ k → q.base ≤ it.node →
    (q.rel it).Ok q.sl → left ≤ (ahead q.sl (q.rel it)).length →
    ∃ es, writeElts q k left it = .ok es ∧ SegmentList.durs es = (ahead q.sl (q.rel it)).take left
  | 0, left, it, h1, h2, _, _, _ => by omega
  | k + 1, left, it, h1, h2, hb, ho, hl => by
    rcases SegmentList.getElement_spec h ho with ⟨e, _⟩ | ⟨e, i, g1, g4, g2, g3⟩
    · rw [e] at hl; simp at hl; omega
    · have hget : q.getElement it = .ok (e, q.abs i) := by
        unfold Segs.getElement
        rw [if_neg (by omega), g1]
        rfl
      rw [writeElts, hget]
      simp only [Res.bind_ok]
      split
      · rename_i hc
        refine ⟨_, rfl, ?_⟩
        rw [g4, List.take_append_of_le_length (by simpa using hc), SegmentList.durs_one, List.take_replicate, Nat.min_eq_left hc]
      · rename_i hc
        have hlen : left - e.count ≤ (ahead q.sl i).length := by rw [g4] at hl; simp at hl; omega
        obtain ⟨es, w1, w2⟩ := writeElts_spec h k (left - e.count) (q.abs i) (by omega) (by omega) (abs_base q i)
          (by rw [rel_abs]; exact g3) (by rw [rel_abs]; exact hlen)
        rw [w1]
        refine ⟨_, rfl, ?_⟩
        rw [rel_abs] at w2
        rw [SegmentList.durs_cons, w2, g4, List.take_append, List.length_replicate, List.take_replicate, Nat.min_eq_right (by omega)]

theorem PerOk.write {mono : Bool} {q : Segs} (h : Inv mono q.sl) {p : Per} {ds : List Nat} (hp : PerOk q p ds) {left : Nat} (h1 : 0 < left)
    (h2 : left ≤ p.count) : ∃ es, writeElts q left left p.it = .ok es ∧ SegmentList.durs es = ds.take left := by
  obtain ⟨⟨b, o, A, C, e1, e2⟩, hc, _, _⟩ := hp
  obtain ⟨es, w1, w2⟩ := writeElts_spec h left left p.it h1 (Nat.le_refl _) b o (by rw [e2]; simp; omega)
  refine ⟨es, w1, ?_⟩
  rw [w2, e2, List.take_append_of_le_length (by omega)]

/-! ## Periods -/

/-- A segment as it is written: without duration when it is pending on the track. -/
def mask (next : Nat) (trk : Option Trk) (max : Nat) (g : Seg) : Seg :=
  if g.idx = max ∧ pendingOn next trk max then { g with dur := 0 } else g

theorem seq_idx : ∀ (ds : List Nat) (i : Nat) (t : Int), (seq i t ds).map (·.idx) = List.range' i ds.length
  | [], _, _ => rfl
  | d :: ds, i, t => by rw [seq, List.map_cons, seq_idx, List.length_cons, List.range'_succ]

theorem filter_range' (max : Nat) : ∀ (c k : Nat), (List.range' k c).filter (fun i => i ≤ max) = List.range' k (min c (max + 1 - k))
  | 0, k => by simp
  | c + 1, k => by
    rw [List.range'_succ, List.filter_cons]
    split
    · rename_i h
      have h : k ≤ max := of_decide_eq_true h
      rw [filter_range' max c (k + 1), show min (c + 1) (max + 1 - k) = min c (max + 1 - (k + 1)) + 1 by omega, List.range'_succ]
    · rename_i h
      have h : ¬k ≤ max := fun e => h (decide_eq_true e)
      rw [filter_range' max c (k + 1), show min (c + 1) (max + 1 - k) = 0 by omega, show min c (max + 1 - (k + 1)) = 0 by omega]
      rfl

theorem filter_rows_nil {max : Nat} : ∀ {d : Nat} {ps : List Per}, (∀ p ∈ ps, max < p.key) → (rowsFrom d ps).filter (fun r => r.1 ≤ max) = []
  | d, ps, h => by
    rw [List.filter_eq_nil_iff]
    intro ⟨i, e⟩ hr
    obtain ⟨⟨p, hp, h1, _⟩, _⟩ := rowsFrom_mem hr
    have := h p hp
    simp; omega

theorem filter_row {max d : Nat} (p : Per) : ((List.range' p.key p.count).map (·, d)).filter (fun r : Nat × Nat => r.1 ≤ max) =
    (List.range' p.key (min p.count (max + 1 - p.key))).map (·, d) := by
  rw [List.filter_map, ← filter_range']
  rfl

theorem map_pair (l : List Seg) (d : Nat) : l.map (fun g => (g.idx, d)) = (l.map (·.idx)).map (·, d) := by
  rw [List.map_map]; rfl

theorem seq_take_mem {q : Segs} {p : Per} {ds : List Nat} (hp : PerOk q p ds) {n : Nat} {g : Seg} (hg : g ∈ seq p.key p.time (ds.take n)) :
    g ∈ segs q.sl := by
  obtain ⟨⟨_, _, A, C, e1, _⟩, _⟩ := hp
  rw [e1]
  have : seq p.key p.time ds = seq p.key p.time (ds.take n) ++ seq (p.key + (ds.take n).length) (p.time + ((ds.take n).sum : Nat)) (ds.drop n) := by
    rw [← SegmentList.seq_append, List.take_append_drop]
  rw [this]
  simp [hg]

/-- The periods written hold the segments up to the last one. -/
theorem writePers_spec {mono : Bool} {q : Segs} (h : Inv mono q.sl) (next : Nat) (trk : Option Trk) (max : Nat) (hq : hi q < 2 ^ 32) :
    ∀ (ps : List Per) (d : Nat), (∀ p ∈ ps, Good q p) → ps.Pairwise (fun p r => p.key + p.count ≤ r.key) →
    ∃ pers, writePers q next trk max ps = .ok pers ∧ srows d pers = (rowsFrom d ps).filter (fun r => r.1 ≤ max) ∧
      (∀ sp ∈ pers, sp.segs ≠ []) ∧ ∀ sp ∈ pers, ∀ g ∈ sp.segs, ∃ k ∈ segs q.sl, g = mask next trk max k
  | [], d, _, _ => ⟨[], rfl, rfl, by simp, by simp⟩
  | p :: ps, d, hg, hs => by
    obtain ⟨ds, hp⟩ := hg p (by simp)
    have hpos := Good.pos ⟨ds, hp⟩
    have hle := Good.le_hi h ⟨ds, hp⟩
    have hcount := hp.count
    obtain ⟨hs1, hs2⟩ := List.pairwise_cons.1 hs
    have hlast : sub32 (p.key + p.count) 1 = p.key + p.count - 1 := by unfold sub32; rw [if_pos (by omega)]
    rw [writePers]
    split
    · refine ⟨[], rfl, ?_, by simp, by simp⟩
      refine (filter_rows_nil (fun r hr => ?_)).symm
      rcases List.mem_cons.1 hr with e | hr
      · rw [e]; assumption
      · have := hs1 r hr; omega
    · rename_i hkey
      dsimp only
      rw [hlast]
      split
      · rename_i hc
        obtain ⟨hc1, hc2⟩ := hc
        have hnil : (rowsFrom (d + 1) ps).filter (fun r => r.1 ≤ max) = [] := filter_rows_nil (fun r hr => by have := hs1 r hr; omega)
        have hrows : (rowsFrom d (p :: ps)).filter (fun r => r.1 ≤ max) = (List.range' p.key (max + 1 - p.key)).map (·, d) := by
          rw [rowsFrom, List.filter_append, hnil, List.append_nil, filter_row, Nat.min_eq_right (by omega)]
        -- the one period, with the last duration zero
        have fin : ∀ es, SegmentList.durs es = ds.take (max - p.key) ++ [0] →
            srows d [⟨p.time, p.key, es⟩] = (rowsFrom d (p :: ps)).filter (fun r => r.1 ≤ max) ∧
            (∀ sp ∈ [(⟨p.time, p.key, es⟩ : SPer)], sp.segs ≠ []) ∧
            ∀ sp ∈ [(⟨p.time, p.key, es⟩ : SPer)], ∀ g ∈ sp.segs, ∃ k ∈ segs q.sl, g = mask next trk max k := by
          intro es he
          have hlen : (ds.take (max - p.key)).length = max - p.key := by rw [List.length_take]; omega
          refine ⟨?_, ?_, ?_⟩
          · rw [hrows, srows, srows, List.append_nil, map_pair]
            show List.map _ (List.map _ (seq p.key p.time (SegmentList.durs es))) = _
            rw [seq_idx, he, List.length_append, hlen, List.length_singleton, show max - p.key + 1 = max + 1 - p.key by omega]
          · intro sp hsp
            rw [List.mem_singleton.1 hsp]
            show seq p.key p.time (SegmentList.durs es) ≠ []
            intro e
            have := congrArg List.length e
            rw [SegmentList.seq_length, he] at this
            simp at this
          · intro sp hsp g hgm
            rw [List.mem_singleton.1 hsp] at hgm
            have hgm : g ∈ seq p.key p.time (SegmentList.durs es) := hgm
            rw [he, SegmentList.seq_append, hlen] at hgm
            rcases List.mem_append.1 hgm with hgm | hgm
            · refine ⟨g, seq_take_mem hp hgm, ?_⟩
              have := (SegmentList.seq_mem _ _ _ _ hgm).2.1
              unfold mask
              rw [if_neg (fun e => by have := e.1; omega)]
            · have e : g = ⟨p.key + (max - p.key), p.time + ((ds.take (max - p.key)).sum : Nat), 0⟩ := by simpa [seq] using hgm
              obtain ⟨x, hx⟩ : ∃ x, ds.take (max - p.key + 1) = ds.take (max - p.key) ++ [x] := by
                have hl : max - p.key < ds.length := by omega
                exact ⟨ds[max - p.key], by rw [List.take_add_one, List.getElem?_eq_getElem hl]; rfl⟩
              refine ⟨⟨p.key + (max - p.key), p.time + ((ds.take (max - p.key)).sum : Nat), x⟩, ?_, ?_⟩
              · refine seq_take_mem hp (n := max - p.key + 1) ?_
                rw [hx, SegmentList.seq_append, hlen]
                simp [seq]
              · unfold mask
                rw [if_pos ⟨by dsimp only; omega, hc2⟩, e]
        split
        · rename_i hk
          have e0 : max - p.key = 0 := by omega
          obtain ⟨f1, f2, f3⟩ := fin [⟨0, 1⟩] (by rw [e0]; rfl)
          exact ⟨_, rfl, f1, f2, f3⟩
        · obtain ⟨es, w1, w2⟩ := hp.write h (left := max - p.key) (by omega) (by omega)
          rw [w1]
          obtain ⟨f1, f2, f3⟩ := fin (es ++ [⟨0, 1⟩]) (by rw [SegmentList.durs_append, w2]; rfl)
          exact ⟨_, rfl, f1, f2, f3⟩
      · rename_i hc
        obtain ⟨rest, r1, r2, r3, r4⟩ := writePers_spec h next trk max hq ps (d + 1) (fun r hr => hg r (List.mem_cons_of_mem _ hr)) hs2
        have hn : (if p.key + p.count - 1 ≥ max then max else p.key + p.count - 1) - p.key + 1 = min p.count (max + 1 - p.key) := by
          split <;> omega
        rw [hn]
        obtain ⟨es, w1, w2⟩ := hp.write h (left := min p.count (max + 1 - p.key)) (by omega) (by omega)
        have hlen : (SegmentList.durs es).length = min p.count (max + 1 - p.key) := by rw [w2, List.length_take]; omega
        rw [w1]
        simp only [Res.bind_ok]
        rw [r1]
        refine ⟨_, rfl, ?_, ?_, ?_⟩
        · rw [srows, r2, rowsFrom, List.filter_append, filter_row, map_pair]
          show List.map _ (List.map _ (seq p.key p.time (SegmentList.durs es))) ++ _ = _
          rw [seq_idx, hlen]
        · intro sp hsp
          rcases List.mem_cons.1 hsp with e | hsp
          · rw [e]
            show seq p.key p.time (SegmentList.durs es) ≠ []
            intro e
            have := congrArg List.length e
            rw [SegmentList.seq_length, hlen] at this
            simp at this; omega
          · exact r3 sp hsp
        · intro sp hsp g hgm
          rcases List.mem_cons.1 hsp with e | hsp
          · rw [e] at hgm
            have hgm : g ∈ seq p.key p.time (SegmentList.durs es) := hgm
            have hm := (SegmentList.seq_mem _ _ _ _ hgm).2.1
            rw [hlen] at hm
            rw [w2] at hgm
            refine ⟨g, seq_take_mem hp hgm, ?_⟩
            unfold mask
            rw [if_neg]
            intro ⟨e1, e2⟩
            exact hc ⟨by omega, e2⟩
          · exact r4 sp hsp g hgm

/-- Numbers go on from the first one, so a part from the beginning keeps them. -/
theorem numbered_filter {P : Nat → Bool} : ∀ (n : Nat) (l : List (Nat × Nat)), l.Pairwise (fun a b => P b.1 = true → P a.1 = true) →
    numbered n (l.filter (fun r => P r.1)) = (numbered n l).filter (fun r => P r.idx)
  | _, [], _ => rfl
  | n, (i, d) :: l, h => by
    obtain ⟨h1, h2⟩ := List.pairwise_cons.1 h
    rw [numbered, List.filter_cons, List.filter_cons]
    split
    · rw [numbered, numbered_filter (n + 1) l h2]
    · rename_i hp
      have e1 : l.filter (fun r => P r.1) = [] := by
        rw [List.filter_eq_nil_iff]; intro r hr he; exact hp (h1 r hr he)
      have e2 : (numbered (n + 1) l).filter (fun r => P r.idx) = [] := by
        rw [List.filter_eq_nil_iff]; intro r hr he
        exact hp (h1 _ (numbered_mem hr).2.2 he)
      rw [e1, e2]; rfl

theorem rowsFrom_sorted : ∀ (d : Nat) (ps : List Per), ps.Pairwise (fun p r => p.key + p.count ≤ r.key) → (rowsFrom d ps).Pairwise (fun a b => a.1 < b.1)
  | _, [], _ => .nil
  | d, p :: ps, h => by
    obtain ⟨h1, h2⟩ := List.pairwise_cons.1 h
    rw [rowsFrom]
    refine List.pairwise_append.2 ⟨?_, rowsFrom_sorted (d + 1) ps h2, ?_⟩
    · rw [List.pairwise_map]
      exact List.pairwise_lt_range'
    · intro a ha b hb
      obtain ⟨i, hi, e⟩ := List.mem_map.1 ha
      obtain ⟨⟨r, hr, h3, _⟩, _⟩ := rowsFrom_mem (i := b.1) (e := b.2) hb
      have := List.mem_range'_1.1 hi
      have := h1 r hr
      rw [← e]
      show i < b.1
      omega

theorem shown_good {q : Segs} {t : Tl} (h : TlInv q t) : (∀ p ∈ shown t.periods t.man, Good q p) ∧
    (shown t.periods t.man).Pairwise (fun p r => p.key + p.count ≤ r.key) := by
  by_cases hc : 0 < t.man.segCount
  · obtain ⟨A, p, R, ds, hb⟩ := h.man.begins hc
    rw [hb.shown h.pids]
    have hs := h.sorted
    rw [hb.hp] at hs
    obtain ⟨_, hs, _⟩ := List.pairwise_append.1 hs
    obtain ⟨h1, h2⟩ := List.pairwise_cons.1 hs
    constructor
    · intro r hr
      rcases List.mem_cons.1 hr with e | hr
      · rw [e]; exact ⟨ds, hb.hf⟩
      · exact h.good r (by rw [hb.hp]; simp [hr])
    · refine List.pairwise_cons.2 ⟨fun r hr => ?_, h2⟩
      rw [hb.hi]; exact h1 r hr
  · unfold shown
    rw [if_pos (by omega)]
    exact ⟨by simp, .nil⟩

theorem endList_ok {q : Segs} {ch : Ch} {t : Tl} (h : TlInv q t) (hc : 0 < t.man.segCount) (trk : Option Trk) (max : Nat) :
    ∃ b, endList ch t trk max = .ok b := by
  unfold endList
  split
  · exact ⟨_, rfl⟩
  · obtain ⟨A, p, R, ds, hb⟩ := h.man.begins hc
    cases hl : t.periods.getLast? with
    | none => rw [List.getLast?_eq_none_iff, hb.hp] at hl; exact absurd hl (by simp)
    | some r =>
      dsimp only
      repeat' split
      all_goals exact ⟨_, rfl⟩

/-- What is served of a timeline that has segments. -/
theorem serve_spec {mono : Bool} {ch : Ch} {H : List Seg} (h : ChInv mono ch H) {t : Tl} (ht : t ∈ ch.tls) (hc : 0 < t.man.segCount)
    (segDur : Nat) (trk : Option Trk) (max : Nat) :
    ∃ hd ps, serve ch t segDur trk max = .ok (hd, ps) ∧ clientRows hd ps = (playlist t).filter (fun r => r.idx ≤ max) ∧
      hd.perCount = ps.length ∧ hd.seq = t.man.sequence - t.man.segCount ∧ hd.firstIdx = t.man.firstIdx ∧ (∀ p ∈ ps, p.segs ≠ []) ∧
      (∀ p ∈ ps, ∀ g ∈ p.segs, ∃ k ∈ H, g = mask ch.next trk max k) ∧ endList ch t trk max = .ok hd.endList ∧
      hd.target = if t.man.target = 0 then segDur else t.man.target := by
  obtain ⟨h1, h2, _⟩ := h.tls t ht
  obtain ⟨b, eb⟩ := endList_ok (ch := ch) h1 hc trk max
  obtain ⟨g1, g2⟩ := shown_good h1
  obtain ⟨ps, w1, w2, w3, w4⟩ := writePers_spec h.inv ch.next trk max h.top _ t.man.firstIdx g1 g2
  have hsh : shown t.periods t.man = t.man.first :: chain t.periods t.man.next := by unfold shown; rw [if_neg (by omega)]
  have hsub : sub32 t.man.sequence t.man.segCount = t.man.sequence - t.man.segCount := by unfold sub32; rw [if_pos h2.seq]
  unfold serve header
  rw [eb]
  simp only [Res.bind_ok]
  rw [← hsh, w1]
  refine ⟨_, _, rfl, ?_, rfl, hsub, rfl, w3, ?_, rfl, ?_⟩
  · unfold clientRows playlist
    dsimp only
    rw [w2, hsub]
    have := numbered_filter (P := fun i => decide (i ≤ max)) (t.man.sequence - t.man.segCount) (rowsFrom t.man.firstIdx (shown t.periods t.man))
      ((rowsFrom_sorted _ _ g2).imp (fun {a b} hab hb => by
        have hb : b.1 ≤ max := of_decide_eq_true hb
        exact decide_eq_true (by omega)))
    exact this
  · intro p hp g hg
    obtain ⟨k, hk, e⟩ := w4 p hp g hg
    obtain ⟨pre, l1, _⟩ := h.log
    exact ⟨k, by rw [l1]; simp [hk], e⟩
  · dsimp only
    split
    · rw [if_pos (by omega)]
    · rw [if_neg (by omega)]

end Verif.Timeline
