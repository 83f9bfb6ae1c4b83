import Verif.TimelineEnd

/-!
# Timelines: lookups, and requests that wait for a segment

Model of the functions of ngx_live_timeline.c that find a segment by its index or its number, and of `ngx_http_live_ksmp_wait_request`.
-/

namespace Verif.Timeline

open Verif.SegmentList (SL Iter Seg Inv segs Tree sub32 add32)

/-! ## Model -/

/-- The value of an unsigned 32 bit expression. -/
def u32 (a : Int) : Nat := (a % 2 ^ 32).toNat

/-- The walk over the periods from the last one (ngx_live_timeline.c:881-899); the list is in this order. -/
def seqWalk (w : Nat) : List Per → Nat → Res Nat
  | [], _ => .ub
  | p :: ps, cur =>
    let cur := sub32 cur p.count
    if w ≥ cur ∨ ps = [] then .ok (u32 (p.key + w - cur))
    else seqWalk w ps cur

/-- `ngx_live_timeline_sequence_to_index` (ngx_live_timeline.c:851-900). -/
def seqToIdx (ch : Ch) (t : Tl) (w : Nat) : Res Nat :=
  if w ≥ t.man.sequence then
    let next := add32 ch.lastIdx 1
    let next := if next < ch.next then ch.next else next
    .ok (u32 (next + w - t.man.sequence))
  else seqWalk w t.periods.reverse t.man.sequence

/-- The walk of `ngx_live_timeline_index_to_sequence` (ngx_live_timeline.c:913-932), over the periods from the last one. -/
def idxWalk (i : Nat) : List Per → Nat → Nat × Bool
  | [], cur => (cur, false)
  | p :: ps, cur =>
    if i ≥ p.key + p.count then (cur, false)
    else
      let cur := sub32 cur p.count
      if i ≥ p.key then (u32 (cur + i - p.key), true)
      else idxWalk i ps cur

/-- `ngx_live_timeline_index_to_sequence` (ngx_live_timeline.c:903-933). -/
def idxToSeq (t : Tl) (i : Nat) : Nat × Bool := idxWalk i t.periods.reverse t.man.sequence

/-- The answers of `ngx_live_timeline_get_segment_info`. -/
inductive Info where
  | found (corr : Int)
  | empty
  | removed
  | notFound
deriving Repr, DecidableEq

/-- `ngx_live_timeline_get_segment_info` (ngx_live_timeline.c:787-848); `first` is the configured initial segment index, `rel` the
flag `NGX_KSMP_FLAG_RELATIVE_DTS`. The tree has positions in the queue. -/
def segInfo (t : Tl) (first i : Nat) (rel : Bool) : Tree → Res Info
  | .leaf => match t.periods with
    | [] => .ok .empty
    | p :: _ => .ok (if first ≤ i ∧ i < p.key then .removed else .notFound)
  | .node l k r => match t.periods[k]? with
    | none => .ub
    | some p =>
      if i < p.key then segInfo t first i rel l
      else if i < p.key + p.count then
        .ok (.found (if rel then (if k = 0 then -t.firstInitTime else -p.time) else p.corr))
      else segInfo t first i rel r

/-- What becomes of a request that waits. -/
inductive Wait where
  | now
  | seqLimit
  | noParts
  | partLimit
  | bad
  | wait (idx part : Nat)
deriving Repr, DecidableEq

/-- The fields of the channel and the track that only matter for parts: `part_duration`, `timescale`, `next_part_index`. -/
structure Parts where
  dur : Nat
  scale : Nat
  next : Nat
deriving Repr, DecidableEq

def Parts.limit (p : Parts) : Nat := if p.dur < p.scale then 3 * p.scale / p.dur else 3

/-- `ngx_http_live_ksmp_wait_request` (http/ngx_http_live_ksmp_module.c:961-1076). `max`, `w` and `part` are parameters of the request;
the part is `invalidIdx` when there is none. -/
def waitRequest (ch : Ch) (t : Tl) (k : Trk) (pt : Parts) (max w part : Nat) : Res Wait := do
  let e ← endList ch t (some k) max
  if e then .ok .now
  else
    let next := add32 ch.next k.pidx
    let n := idxToSeq t next
    if w < n.1 then .ok .now
    else if w = n.1 ∧ n.2 ∧ part < pt.next then .ok .now
    else if w ≥ add32 n.1 2 then .ok .seqLimit
    else if part ≠ invalidIdx ∧ pt.dur = 0 then .ok .noParts
    else if part ≠ invalidIdx ∧ part ≥ add32 pt.next pt.limit then .ok .partLimit
    else do
      let i ← seqToIdx ch t w
      if i < next then .ok .bad
      else if i = next ∧ part < pt.next then .ok .bad
      else .ok (.wait i part)

/-! ## Counting from the end -/

/-- How many of the indexes are not before `i`. -/
def newer (is : List Nat) (i : Nat) : Nat := (is.filter (fun j => i ≤ j)).length

theorem newer_append (a b : List Nat) (i : Nat) : newer (a ++ b) i = newer a i + newer b i := by
  unfold newer; rw [List.filter_append, List.length_append]

theorem newer_range (i : Nat) : ∀ (c k : Nat), newer (List.range' k c) i = if i ≤ k then c else k + c - i
  | 0, k => by simp [newer]; omega
  | c + 1, k => by
    rw [List.range'_succ, show k :: List.range' (k + 1) c = [k] ++ List.range' (k + 1) c from rfl, newer_append, newer_range i c]
    unfold newer
    by_cases h : i ≤ k
    · simp [h, show i ≤ k + 1 by omega]; omega
    · simp only [List.filter_cons, h, List.filter_nil, decide_false, Bool.false_eq_true, if_false, List.length_nil]
      split <;> omega

theorem newer_zero {is : List Nat} {i : Nat} (h : ∀ j ∈ is, j < i) : newer is i = 0 := by
  unfold newer
  rw [List.length_eq_zero_iff, List.filter_eq_nil_iff]
  intro j hj
  have := h j hj
  simp; omega

theorem newer_all {is : List Nat} {i : Nat} (h : ∀ j ∈ is, i ≤ j) : newer is i = is.length := by
  unfold newer
  rw [List.filter_eq_self.2]
  intro j hj
  exact decide_eq_true (h j hj)

theorem newer_le (is : List Nat) {i j : Nat} (h : i ≤ j) : newer is j ≤ newer is i := by
  unfold newer
  induction is with
  | nil => simp
  | cons x is ih =>
    simp only [List.filter_cons]
    split
    · rename_i h1
      have h1 := of_decide_eq_true h1
      rw [if_pos (decide_eq_true (by omega))]
      simp [ih]
    · split
      · simp only [List.length_cons]; omega
      · exact ih

theorem newer_lt {is : List Nat} {i j : Nat} (hi : i ∈ is) (h : i < j) : newer is j < newer is i := by
  induction is with
  | nil => exact absurd hi List.not_mem_nil
  | cons x is ih =>
    rw [show x :: is = [x] ++ is from rfl, newer_append, newer_append]
    rcases List.mem_cons.1 hi with e | hi
    · subst e
      have := newer_le is (Nat.le_of_lt h)
      have h1 : newer [i] j = 0 := newer_zero (by simp; omega)
      have h2 : newer [i] i = 1 := newer_all (by simp)
      omega
    · have := ih hi
      have := newer_le [x] (Nat.le_of_lt h)
      omega

theorem newer_inj {is : List Nat} {i j : Nat} (hi : i ∈ is) (hj : j ∈ is) (h : newer is i = newer is j) : i = j := by
  rcases Nat.lt_trichotomy i j with h1 | h1 | h1
  · have := newer_lt hi h1; omega
  · exact h1
  · have := newer_lt hj h1; omega

/-! ## The walks -/

/-- Periods in order, from the last one. -/
def Desc (rps : List Per) : Prop := rps.Pairwise (fun r p => p.key + p.count ≤ r.key) ∧ ∀ p ∈ rps, 0 < p.count ∧ p.key + p.count < 2 ^ 32

theorem Desc.tail {p : Per} {ps : List Per} (h : Desc (p :: ps)) : Desc ps ∧ (∀ i ∈ ids ps.reverse, i < p.key) ∧ 0 < p.count ∧ p.key + p.count < 2 ^ 32 := by
  obtain ⟨h1, h2⟩ := h
  rw [List.pairwise_cons] at h1
  refine ⟨⟨h1.2, fun r hr => h2 r (List.mem_cons_of_mem _ hr)⟩, fun i hi => ?_, h2 p List.mem_cons_self⟩
  obtain ⟨r, hr, _, h4⟩ := mem_ids.1 hi
  have := h1.1 r (List.mem_reverse.1 hr)
  omega

theorem ids_rev_cons (p : Per) (ps : List Per) : ids (p :: ps).reverse = ids ps.reverse ++ List.range' p.key p.count := by
  rw [List.reverse_cons, ids_append, ids_cons, show ids ([] : List Per) = [] from rfl, List.append_nil]

theorem idxWalk_spec (i : Nat) : ∀ {rps : List Per} {cur : Nat}, Desc rps → cur < 2 ^ 32 →
    idxWalk i rps cur = (u32 (cur - newer (ids rps.reverse) i), decide (i ∈ ids rps.reverse))
  | [], cur, _, hc => by simp [idxWalk, ids, newer, u32]; omega
  | p :: ps, cur, h, hc => by
    obtain ⟨h1, h2, h3, h4⟩ := h.tail
    rw [idxWalk, ids_rev_cons, newer_append, newer_range]
    split
    · rename_i hge
      have hn : i ∉ ids ps.reverse ++ List.range' p.key p.count := fun hm => by
        rcases List.mem_append.1 hm with hm | hm
        · have := h2 i hm; omega
        · rw [List.mem_range'_1] at hm; omega
      rw [newer_zero (fun j hj => by have := h2 j hj; omega)]
      simp only [hn, decide_false]
      congr 1
      unfold u32
      split <;> omega
    · rename_i hlt
      dsimp only
      have hs : sub32 cur p.count < 2 ^ 32 := by unfold sub32; split <;> omega
      split
      · rename_i hge
        have hm : i ∈ ids ps.reverse ++ List.range' p.key p.count :=
          List.mem_append_right _ (List.mem_range'_1.2 ⟨hge, by omega⟩)
        rw [newer_zero (fun j hj => by have := h2 j hj; omega)]
        simp only [hm, decide_true]
        congr 1
        unfold u32 sub32
        split <;> split <;> omega
      · rename_i hlt2
        rw [idxWalk_spec i h1 hs]
        congr 1
        · rw [if_pos (by omega)]
          unfold u32 sub32
          split <;> omega
        · refine decide_eq_decide.2 ⟨List.mem_append_left _, fun hm => (List.mem_append.1 hm).resolve_right fun hm => ?_⟩
          rw [List.mem_range'_1] at hm; omega

theorem seqWalk_spec (w : Nat) : ∀ {rps : List Per} {cur : Nat}, Desc rps → cur < 2 ^ 32 → w < cur → cur - w ≤ (ids rps.reverse).length →
    (ids rps.reverse).length ≤ cur → ∃ x, seqWalk w rps cur = .ok x ∧ x ∈ ids rps.reverse ∧ newer (ids rps.reverse) x = cur - w
  | [], cur, _, _, h1, h2, _ => by simp [ids] at h2; omega
  | p :: ps, cur, h, hc, hw, hl, hle => by
    obtain ⟨h1, h2, h3, h4⟩ := h.tail
    rw [ids_rev_cons, List.length_append, List.length_range'] at hl hle
    have hs : sub32 cur p.count = cur - p.count := by unfold sub32; rw [if_pos (by omega)]
    rw [seqWalk, ids_rev_cons, hs]
    by_cases hcase : w ≥ cur - p.count
    · rw [if_pos (.inl hcase)]
      have e : u32 (p.key + w - (cur - p.count : Nat)) = p.key + (w - (cur - p.count)) := by unfold u32; omega
      refine ⟨_, rfl, ?_, ?_⟩
      · rw [e]; exact List.mem_append_right _ (List.mem_range'_1.2 ⟨by omega, by omega⟩)
      · rw [e, newer_append, newer_range, newer_zero (fun j hj => by have := h2 j hj; omega)]
        split <;> omega
    · have hne : ps ≠ [] := by
        rintro rfl
        simp [ids] at hl
        omega
      rw [if_neg (by simp [hne]; omega)]
      obtain ⟨x, x1, x2, x3⟩ := seqWalk_spec w h1 (cur := cur - p.count) (by omega) (by omega) (by omega) (by omega)
      refine ⟨x, x1, List.mem_append_left _ x2, ?_⟩
      rw [newer_append, x3, newer_range, if_pos (by have := h2 x x2; omega)]
      omega

/-! ## Rows of the playlist -/

theorem numbered_newer : ∀ {n : Nat} {l : List (Nat × Nat)} {r : Row}, l.Pairwise (fun a b => a.1 < b.1) → r ∈ numbered n l →
    newer (l.map (·.1)) r.idx = n + l.length - r.num ∧ n ≤ r.num ∧ r.num < n + l.length
  | _, [], r, _, h => absurd h List.not_mem_nil
  | n, (i, d) :: l, r, hs, h => by
    obtain ⟨h1, h2⟩ := List.pairwise_cons.1 hs
    rw [numbered] at h
    rw [List.map_cons, show i :: l.map (·.1) = [i] ++ l.map (·.1) from rfl, newer_append, List.length_cons]
    rcases List.mem_cons.1 h with e | h
    · rw [e]
      dsimp only
      rw [newer_all (is := [i]) (by simp), newer_all (is := l.map (·.1)) (fun j hj => by
        obtain ⟨x, hx, e⟩ := List.mem_map.1 hj
        have := h1 x hx
        dsimp only at this e
        omega)]
      simp; omega
    · obtain ⟨q1, q2, q3⟩ := numbered_newer h2 h
      obtain ⟨_, _, q6⟩ := numbered_mem h
      have := h1 _ q6
      dsimp only at this
      rw [q1, newer_zero (is := [i]) (by simpa using this)]
      omega

theorem numbered_at : ∀ {n m : Nat} {l : List (Nat × Nat)}, n ≤ m → m < n + l.length → ∃ r ∈ numbered n l, r.num = m
  | n, m, [], h1, h2 => by simp at h2; omega
  | n, m, (i, d) :: l, h1, h2 => by
    rw [numbered]
    by_cases e : m = n
    · exact ⟨_, List.mem_cons_self, e.symm⟩
    · rw [List.length_cons] at h2
      obtain ⟨r, hr, e⟩ := numbered_at (n := n + 1) (m := m) (l := l) (by omega) (by omega)
      exact ⟨r, List.mem_cons_of_mem _ hr, e⟩

theorem ids_sorted {ps : List Per} (h : ps.Pairwise (fun p r => p.key + p.count ≤ r.key)) : (ids ps).Pairwise (· < ·) := by
  have := rowsFrom_sorted 0 ps h
  rw [← rowsFrom_fst 0 ps]
  exact List.pairwise_map.2 this

/-- The number of a row is counted from the next number, back over the segments of the timeline. -/
theorem row_newer {mono : Bool} {s : Ch} {H : List Seg} (h : ChInv mono s H) {t : Tl} (ht : t ∈ s.tls) {r : Row} (hr : r ∈ playlist t) :
    r.idx ∈ ids t.periods ∧ newer (ids t.periods) r.idx = t.man.sequence - r.num ∧ t.man.sequence - t.man.segCount ≤ r.num ∧ r.num < t.man.sequence := by
  obtain ⟨h1, h2, _⟩ := h.tls t ht
  obtain ⟨k, hk⟩ := shown_suffix h1
  rw [← playlist_idx] at hk
  have hin : r.idx ∈ (ids t.periods).drop k := by rw [← hk]; exact List.mem_map.2 ⟨r, hr, rfl⟩
  have hsrt := ids_sorted h1.sorted
  rw [← List.take_append_drop k (ids t.periods)] at hsrt
  have hb : ∀ j ∈ (ids t.periods).take k, j < r.idx := fun j hj => (List.pairwise_append.1 hsrt).2.2 j hj _ hin
  have hn := numbered_newer (rowsFrom_sorted t.man.firstIdx _ (shown_good h1).2) hr
  have hl := h1.rows_length
  unfold rows at hl
  rw [hl] at hn
  obtain ⟨n1, n2, n3⟩ := hn
  have hsq := h2.seq
  refine ⟨List.mem_of_mem_drop hin, ?_, n2, by omega⟩
  rw [← List.take_append_drop k (ids t.periods), newer_append, newer_zero hb, ← hk]
  unfold playlist
  rw [numbered_idx]
  unfold rows
  rw [n1]
  omega

theorem row_at {mono : Bool} {s : Ch} {H : List Seg} (h : ChInv mono s H) {t : Tl} (ht : t ∈ s.tls) {m : Nat} (h1 : t.man.sequence - t.man.segCount ≤ m)
    (h2 : m < t.man.sequence) : ∃ r ∈ playlist t, r.num = m := by
  obtain ⟨i1, i2, _⟩ := h.tls t ht
  have hl := i1.rows_length
  have := i2.seq
  exact numbered_at h1 (by rw [hl]; omega)

theorem desc_of {mono : Bool} {s : Ch} {H : List Seg} (h : ChInv mono s H) {t : Tl} (ht : t ∈ s.tls) : Desc t.periods.reverse := by
  obtain ⟨h1, _, _⟩ := h.tls t ht
  refine ⟨List.pairwise_reverse.2 h1.sorted, fun p hp => ?_⟩
  have hg := h1.good p (List.mem_reverse.1 hp)
  have := hg.le_hi h.inv
  have := h.top
  exact ⟨hg.pos, by omega⟩

theorem seq_lt {mono : Bool} {s : Ch} {H : List Seg} (h : ChInv mono s H) {t : Tl} (ht : t ∈ s.tls) : t.man.sequence < 2 ^ 32 := by
  obtain ⟨_, h2, _⟩ := h.tls t ht
  have := h2.le
  have := h.top
  have := h.nxt
  omega

theorem idxToSeq_spec {mono : Bool} {s : Ch} {H : List Seg} (h : ChInv mono s H) {t : Tl} (ht : t ∈ s.tls) (i : Nat) :
    idxToSeq t i = (u32 (t.man.sequence - newer (ids t.periods) i), decide (i ∈ ids t.periods)) := by
  unfold idxToSeq
  rw [idxWalk_spec i (desc_of h ht) (seq_lt h ht), List.reverse_reverse]

/-- **C49.** The number of a listed segment is found from its index; an index behind all segments gives the next number, which is not
taken. -/
theorem index_to_number {mono : Bool} {s : Ch} {H : List Seg} (hr : Reach mono s H) {t : Tl} (ht : t ∈ s.tls) :
    (∀ r ∈ playlist t, idxToSeq t r.idx = (r.num, true)) ∧ ∀ i, (∀ j ∈ ids t.periods, j < i) → idxToSeq t i = (t.man.sequence, false) := by
  have h := reach_inv hr
  have hs := seq_lt h ht
  refine ⟨fun r hr' => ?_, fun i hi => ?_⟩
  · obtain ⟨h1, h2, h3, h4⟩ := row_newer h ht hr'
    rw [idxToSeq_spec h ht, h2]
    simp only [h1, decide_true]
    congr 1
    unfold u32; omega
  · rw [idxToSeq_spec h ht, newer_zero hi]
    have : i ∉ ids t.periods := fun hm => by have := hi i hm; omega
    simp only [this, decide_false]
    congr 1
    unfold u32; omega

/-- **C49.** The index of a listed segment is found from its number. A number that is not taken yet gives an index behind the segments
of the timeline. The timeline has no more segments than numbers were given; see `dropped_takes_no_number`. -/
theorem number_to_index_partial {mono : Bool} {s : Ch} {H : List Seg} (hr : Reach mono s H) {t : Tl} (ht : t ∈ s.tls)
    (hseg : t.segCount ≤ t.man.sequence) :
    (∀ r ∈ playlist t, seqToIdx s t r.num = .ok r.idx) ∧
    ∀ w, t.man.sequence ≤ w → max (s.lastIdx + 1) s.next + (w - t.man.sequence) < 2 ^ 32 →
      seqToIdx s t w = .ok (max (s.lastIdx + 1) s.next + (w - t.man.sequence)) := by
  have h := reach_inv hr
  have hs := seq_lt h ht
  obtain ⟨i1, _, _⟩ := h.tls t ht
  refine ⟨fun r hr' => ?_, fun w hw hb => ?_⟩
  · obtain ⟨h1, h2, h3, h4⟩ := row_newer h ht hr'
    unfold seqToIdx
    rw [if_neg (by omega)]
    have hlen : (ids t.periods).length = t.segCount := by rw [ids_length, i1.cs]
    have hle : newer (ids t.periods) r.idx ≤ (ids t.periods).length := List.length_filter_le _ _
    obtain ⟨x, x1, x2, x3⟩ := seqWalk_spec r.num (desc_of h ht) hs h4 (by rw [List.reverse_reverse]; omega) (by rw [List.reverse_reverse]; omega)
    rw [List.reverse_reverse] at x2 x3
    rw [x1, newer_inj x2 h1 (by omega)]
  · unfold seqToIdx
    rw [if_pos hw]
    have e : add32 s.lastIdx 1 = s.lastIdx + 1 := by unfold add32; rw [if_pos (by omega)]
    rw [e]
    dsimp only
    congr 1
    unfold u32
    split <;> omega

/-! ## Waiting -/

/-- **C50.** A request that waits for a number is answered at once exactly when a listed segment with this number or a later one is
complete on the track, or is the next one of the track, with this number, and has the part; or when the end was announced. Some
listed segment is complete on the track. -/
theorem wait_now_iff {mono : Bool} {s : Ch} {H : List Seg} (hr : Reach mono s H) {t : Tl} (ht : t ∈ s.tls) (k : Trk) (pt : Parts) {max w part : Nat}
    {a : Wait} (he : waitRequest s t k pt max w part = .ok a) (hk : s.next + k.pidx < 2 ^ 32) (h0 : ∃ r ∈ playlist t, r.idx < s.next + k.pidx) :
    a = .now ↔ endList s t (some k) max = .ok true ∨
      ∃ r ∈ playlist t, w ≤ r.num ∧ (r.idx < s.next + k.pidx ∨ r.num = w ∧ r.idx = s.next + k.pidx ∧ part < pt.next) := by
  have h := reach_inv hr
  have hs := seq_lt h ht
  have hnx : add32 s.next k.pidx = s.next + k.pidx := by unfold add32; rw [if_pos hk]
  unfold waitRequest at he
  obtain ⟨e, e1, he⟩ := bind_eq_ok he
  rw [hnx] at he
  dsimp only at he
  rw [e1]
  obtain ⟨r0, hr0, hlt0⟩ := h0
  obtain ⟨a1, a2, a3, a4⟩ := row_newer h ht hr0
  have hc := newer_lt a1 hlt0
  have hsp := idxToSeq_spec h ht (s.next + k.pidx)
  have hu : u32 (t.man.sequence - newer (ids t.periods) (s.next + k.pidx)) = t.man.sequence - newer (ids t.periods) (s.next + k.pidx) := by
    unfold u32; omega
  rw [hu] at hsp
  rw [hsp] at he
  dsimp only at he
  cases e with
  | true =>
    injection he with he
    exact ⟨fun _ => .inl rfl, fun _ => he.symm⟩
  | false =>
    simp only [Bool.false_eq_true, if_false] at he
    have hno : (Res.ok false : Res Bool) ≠ .ok true := fun h => by injection h with h; exact nomatch h
    constructor
    · intro ha
      refine .inr ?_
      subst ha
      split at he
      · rename_i hw
        obtain ⟨r, hr', er⟩ := row_at h ht (m := t.man.sequence - newer (ids t.periods) (s.next + k.pidx) - 1) (by omega) (by omega)
        obtain ⟨b1, b2, b3, b4⟩ := row_newer h ht hr'
        refine ⟨r, hr', by omega, .inl ?_⟩
        apply Decidable.byContradiction
        intro hge
        have := newer_le (ids t.periods) (show s.next + k.pidx ≤ r.idx by omega)
        omega
      · split at he
        · rename_i hw
          obtain ⟨hw1, hw2, hw3⟩ := hw
          have hw2 := of_decide_eq_true hw2
          have hpos : 0 < newer (ids t.periods) (s.next + k.pidx) := by
            have := newer_lt hw2 (Nat.lt_succ_self _); omega
          obtain ⟨r, hr', er⟩ := row_at h ht (m := t.man.sequence - newer (ids t.periods) (s.next + k.pidx)) (by omega) (by omega)
          obtain ⟨b1, b2, b3, b4⟩ := row_newer h ht hr'
          exact ⟨r, hr', by omega, .inr ⟨by omega, newer_inj b1 hw2 (by omega), hw3⟩⟩
        · exfalso
          repeat' split at he
          all_goals first | (cases he; done) | skip
          obtain ⟨i, _, he⟩ := bind_eq_ok he
          repeat' split at he
          all_goals cases he
    · rintro (hn | ⟨r, hr', hw, hcase⟩)
      · exact absurd hn hno
      · obtain ⟨b1, b2, b3, b4⟩ := row_newer h ht hr'
        rcases hcase with hlt | ⟨c1, c2, c3⟩
        · have := newer_lt b1 hlt
          rw [if_pos (by omega)] at he
          injection he with he
          exact he.symm
        · rw [c2] at b1 b2
          rw [if_neg (by omega), if_pos ⟨by omega, decide_eq_true b1, c3⟩] at he
          injection he with he
          exact he.symm

/-- What the segmenter guarantees for a track: it is not ahead of the segments that were added, and has parts only of a segment that
was begun (ngx_live_segmenter_ll.c:706-731, 848, 977). -/
structure TrkOk (s : Ch) (k : Trk) (pt : Parts) : Prop where
  lt : s.next + k.pidx + k.has.toNat < 2 ^ 32
  le : s.next + k.pidx + k.has.toNat ≤ max (s.lastIdx + 1) s.next
  parts : 0 < pt.next → k.has = true

/-- **C50.** A request that waits is answered with a playlist that has the number it waits for, or a later one, unless the end was
announced; the setting for the end is not forced, and the request has no `max_segment_index`. -/
theorem wait_served {mono : Bool} {s : Ch} {H : List Seg} (hr : Reach mono s H) {t : Tl} (ht : t ∈ s.tls) {k : Trk} {pt : Parts} {w part : Nat}
    (hk : TrkOk s k pt) (he : waitRequest s t k pt invalidIdx w part = .ok .now) (h0 : ∃ r ∈ playlist t, r.idx < s.next + k.pidx)
    (h2 : t.man.conf.endList ≠ 2) (sd : Nat) (pending : Bool) :
    ∃ mx hd ps, maxIndex s t (some k) pending invalidIdx = .ok mx ∧ serve s t sd (some k) mx = .ok (hd, ps) ∧
      (hd.endList = true ∨ ∃ r ∈ clientRows hd ps, w ≤ r.num) := by
  have h := reach_inv hr
  obtain ⟨i1, i2, _⟩ := h.tls t ht
  obtain ⟨k1, k2, k3⟩ := hk
  have hc : 0 < t.man.segCount := by
    obtain ⟨r0, hr0, _⟩ := h0
    obtain ⟨_, _, _, _⟩ := row_newer h ht hr0
    have := i2.seq
    omega
  obtain ⟨p, p1, p2, p3, p4⟩ := last_row i1 hc
  have hnow := (wait_now_iff hr ht k pt he (by omega) h0).1 rfl
  have hidx : ∀ r ∈ playlist t, r.idx ≤ p.key + p.count - 1 := fun r hr' => p4 r.idx (List.mem_map.2 ⟨r, hr', rfl⟩)
  obtain ⟨f, hf1, hf2⟩ : ∃ f, t.periods.head? = some f ∧ ∀ r ∈ playlist t, f.key ≤ r.idx := by
    cases e : t.periods with
    | nil => rw [e] at p1; exact nomatch p1
    | cons f fs =>
      refine ⟨f, rfl, fun r hr' => ?_⟩
      obtain ⟨b1, _⟩ := row_newer h ht hr'
      obtain ⟨x, hx, x1, _⟩ := mem_ids.1 b1
      have hs := i1.sorted
      rw [e] at hx hs
      rcases List.mem_cons.1 hx with e | hx
      · rw [← e]; exact x1
      · have := (List.pairwise_cons.1 hs).1 x hx; omega
  have htop := h.top
  have hlast : p.key + p.count < 2 ^ 32 := by
    obtain ⟨r, hr', e⟩ := List.mem_map.1 p3
    have := (playlist_mem h.inv i1 i2 hr').1
    omega
  obtain ⟨r0, hr0, hlt0⟩ := h0
  have hb0 := hf2 r0 hr0
  have hnx : add32 s.next (k.pidx + k.has.toNat) = s.next + k.pidx + k.has.toNat := by unfold add32; rw [if_pos (by omega)]; omega
  have hmx : maxIndex s t (some k) pending invalidIdx = .ok (min (p.key + p.count - 1) (s.next + k.pidx + k.has.toNat - 1)) := by
    unfold maxIndex
    rw [if_neg (by omega), p1, hf1]
    simp only [Option.isSome_some, Bool.true_or, true_and, p2, ne_eq, h2, not_false_eq_true, if_true, hnx]
    rw [if_neg (by omega)]
    have hsub : sub32 (s.next + k.pidx + k.has.toNat) 1 = s.next + k.pidx + k.has.toNat - 1 := by unfold sub32; rw [if_pos (by omega)]
    rw [hsub]
    unfold invalidIdx
    split
    · rw [if_neg (by omega)]; congr 1; omega
    · rw [if_neg (by omega)]; congr 1; omega
  obtain ⟨hd, ps, s1, s2, _, _, _, _, _, s3, _⟩ := serve_spec h ht hc sd (some k) (min (p.key + p.count - 1) (s.next + k.pidx + k.has.toNat - 1))
  refine ⟨_, hd, ps, hmx, s1, ?_⟩
  rcases hnow with hE | ⟨r, hr', hw, hcase⟩
  · refine .inl ?_
    have hx : endList s t (some k) (min (p.key + p.count - 1) (s.next + k.pidx + k.has.toNat - 1)) = .ok true := by
      unfold endList at hE ⊢
      split at hE
      · cases hE
      · rename_i h3
        rw [if_neg h3]
        rw [p1] at hE ⊢
        dsimp only at hE ⊢
        rw [p2] at hE ⊢
        rw [if_neg h2]
        split at hE
        · cases hE
        · split at hE
          · cases hE
          · rename_i h4
            injection hE with hE
            have h5 := of_decide_eq_true hE
            have hn2 : add32 s.next k.pidx = s.next + k.pidx := by unfold add32; rw [if_pos (by omega)]
            rw [hn2] at h5
            rw [if_neg (by omega), if_neg h4, hE]
    rw [s3] at hx
    injection hx
  · refine .inr ⟨r, ?_, hw⟩
    rw [s2]
    refine List.mem_filter.2 ⟨hr', decide_eq_true ?_⟩
    have := hidx r hr'
    rcases hcase with hlt | ⟨_, c2, c3⟩
    · omega
    · have := k3 (by omega)
      rw [this]
      simp only [Bool.toNat_true]
      omega


theorem log_last {mono : Bool} {s : Ch} {H : List Seg} (hr : Reach mono s H) : ∀ g ∈ H, g.idx ≤ s.lastIdx := by
  induction hr with
  | init next scale h => intro g hg; exact absurd hg List.not_mem_nil
  | @step s s' H op hr hG he ih =>
    have hI := reach_inv hr
    have hI2 := reach_inv (.step hr hG he)
    by_cases h1 : ∃ now time idx dur force, op = .add now time idx dur force
    · obtain ⟨now, time, idx, dur, force, rfl⟩ := h1
      intro g hg
      have hl := hI2.last ⟨idx, time, dur⟩ (by simp [log])
      rw [hl]
      rcases List.mem_append.1 hg with hg | hg
      · exact Nat.le_of_lt (log_lt hI hG.1 hG.2.1 hg)
      · rw [List.mem_singleton.1 hg]; exact Nat.le_refl _
    · by_cases h2 : ∃ dur, op = .updateLast dur
      · obtain ⟨dur, rfl⟩ := h2
        intro g hg
        rcases SegmentList.snoc_cases H with e | ⟨A, x, e⟩
        · subst e; exact absurd hg List.not_mem_nil
        · have h3 := hI.last x (by rw [e]; simp)
          have e2 : log H (.updateLast dur) = A ++ [{ x with dur }] := by
            rw [e]
            simp only [log, List.getLast?_append, List.getLast?_singleton, Option.some_or, SegmentList.setLast_concat]
          have h4 := hI2.last { x with dur } (by rw [e2]; simp)
          rw [e2] at hg
          rw [h4]
          dsimp only
          rw [← h3]
          rcases List.mem_append.1 hg with hg | hg
          · exact ih g (by rw [e]; exact List.mem_append_left _ hg)
          · rw [List.mem_singleton.1 hg]; exact Nat.le_of_eq h3.symm
      · obtain ⟨_, e2⟩ := step_pend he (fun a b c d f h => h1 ⟨a, b, c, d, f, h⟩) (fun d h => h2 ⟨d, h⟩)
        have hl : log H op = H := by
          cases op with
          | add now time idx dur force => exact absurd ⟨_, _, _, _, _, rfl⟩ h1
          | updateLast dur => exact absurd ⟨_, rfl⟩ h2
          | _ => rfl
        rw [hl, e2]; exact ih

/-- **C50.** A request that has to wait waits for the segment with the number, when this is listed, and else for a segment that was not
added yet; in both cases it is not complete on the track. It is never refused as inconsistent. -/
theorem wait_right {mono : Bool} {s : Ch} {H : List Seg} (hr : Reach mono s H) {t : Tl} (ht : t ∈ s.tls) {k : Trk} {pt : Parts} {max w part : Nat}
    (hk : TrkOk s k pt) (hc : 0 < t.man.segCount) (hseg : t.segCount ≤ t.man.sequence) (h0 : ∃ r ∈ playlist t, r.idx < s.next + k.pidx) {a : Wait}
    (hl : s.lastIdx + 2 < 2 ^ 32) (hn : s.next + 1 < 2 ^ 32) (he : waitRequest s t k pt max w part = .ok a) :
    a ≠ .bad ∧ ∀ i p, a = .wait i p → p = part ∧ s.next + k.pidx ≤ i ∧ (i = s.next + k.pidx → pt.next ≤ part) ∧
      ((∃ r ∈ playlist t, r.num = w ∧ r.idx = i) ∨ t.man.sequence ≤ w ∧ i ∉ H.map (·.idx)) := by
  have h := reach_inv hr
  have hs := seq_lt h ht
  obtain ⟨k1, k2, k3⟩ := hk
  have hnx : add32 s.next k.pidx = s.next + k.pidx := by unfold add32; rw [if_pos (by omega)]
  unfold waitRequest at he
  obtain ⟨e, e1, he⟩ := bind_eq_ok he
  rw [hnx] at he
  dsimp only at he
  obtain ⟨r0, hr0, hlt0⟩ := h0
  obtain ⟨a1, a2, a3, a4⟩ := row_newer h ht hr0
  have hc := newer_lt a1 hlt0
  have hsp := idxToSeq_spec h ht (s.next + k.pidx)
  have hu : u32 (t.man.sequence - newer (ids t.periods) (s.next + k.pidx)) = t.man.sequence - newer (ids t.periods) (s.next + k.pidx) := by
    unfold u32; omega
  rw [hu] at hsp
  rw [hsp] at he
  dsimp only at he
  have fin : ∀ b : Wait, (Res.ok b : Res Wait) = .ok a → b ≠ .bad → (∀ i p, b ≠ .wait i p) → a ≠ .bad ∧ ∀ i p, a = .wait i p → p = part ∧
      s.next + k.pidx ≤ i ∧ (i = s.next + k.pidx → pt.next ≤ part) ∧
      ((∃ r ∈ playlist t, r.num = w ∧ r.idx = i) ∨ t.man.sequence ≤ w ∧ i ∉ H.map (·.idx)) := fun b hb h1 h2 => by
    injection hb with hb
    rw [← hb]
    exact ⟨h1, fun i p h3 => absurd h3 (h2 i p)⟩
  split at he
  · exact fin _ he (fun h => nomatch h) (fun _ _ h => nomatch h)
  split at he
  · exact fin _ he (fun h => nomatch h) (fun _ _ h => nomatch h)
  rename_i hw1
  split at he
  · exact fin _ he (fun h => nomatch h) (fun _ _ h => nomatch h)
  rename_i hw2
  split at he
  · exact fin _ he (fun h => nomatch h) (fun _ _ h => nomatch h)
  rename_i hw3
  split at he
  · exact fin _ he (fun h => nomatch h) (fun _ _ h => nomatch h)
  split at he
  · exact fin _ he (fun h => nomatch h) (fun _ _ h => nomatch h)
  obtain ⟨i, hi, he⟩ := bind_eq_ok he
  suffices s.next + k.pidx ≤ i ∧ (i = s.next + k.pidx → pt.next ≤ part) ∧
      ((∃ r ∈ playlist t, r.num = w ∧ r.idx = i) ∨ t.man.sequence ≤ w ∧ i ∉ H.map (·.idx)) by
    obtain ⟨g1, g2, g3⟩ := this
    rw [if_neg (by omega), if_neg (fun hx => by have := g2 hx.1; omega)] at he
    injection he with he
    rw [← he]
    refine ⟨(fun h => nomatch h), fun i' p' h3 => ?_⟩
    injection h3 with h3 h4
    subst h3 h4
    exact ⟨rfl, g1, g2, g3⟩
  obtain ⟨n1, n2⟩ := number_to_index_partial hr ht hseg
  by_cases hlt : w < t.man.sequence
  · obtain ⟨r, hr', er⟩ := row_at h ht (m := w) (by omega) hlt
    obtain ⟨b1, b2, b3, b4⟩ := row_newer h ht hr'
    have := n1 r hr'
    rw [er, hi] at this
    injection this with this
    subst this
    refine ⟨?_, fun hx => ?_, .inl ⟨r, hr', er, rfl⟩⟩
    · apply Decidable.byContradiction
      intro hge
      have := newer_lt b1 (show r.idx < s.next + k.pidx by omega)
      omega
    · rw [hx] at b1 b2
      apply Decidable.byContradiction
      intro hge
      exact hw2 ⟨by omega, decide_eq_true b1, by omega⟩
  · have hw4 : w < t.man.sequence - newer (ids t.periods) (s.next + k.pidx) + 2 := by
      have : add32 (t.man.sequence - newer (ids t.periods) (s.next + k.pidx)) 2 ≤ t.man.sequence - newer (ids t.periods) (s.next + k.pidx) + 2 := by
        unfold add32; split <;> omega
      omega
    have := n2 w (by omega) (by omega)
    rw [hi] at this
    injection this with this
    subst this
    refine ⟨by omega, fun hx => ?_, .inr ⟨by omega, fun hm => ?_⟩⟩
    · have : ¬0 < pt.next := fun h0 => by
        have := k3 h0
        rw [this] at k2
        simp only [Bool.toNat_true] at k2
        omega
      omega
    · obtain ⟨g, hg, eg⟩ := List.mem_map.1 hm
      have := log_last hr g hg
      omega

/-! ## Segments by index -/

/-- The period that has a segment, with its place. -/
def HasAt (t : Tl) (i k : Nat) (p : Per) : Prop := t.periods[k]? = some p ∧ p.key ≤ i ∧ i < p.key + p.count

theorem segInfo_tree {t : Tl} (hs : t.periods.Pairwise (fun p r => p.key + p.count ≤ r.key)) (first i : Nat) (rel : Bool) :
    ∀ (tr : Tree) (a n : Nat), tr.walk = List.range' a n → a + n ≤ t.periods.length →
    (∀ k p, k < a → t.periods[k]? = some p → p.key + p.count ≤ i) → (∀ k p, a + n ≤ k → t.periods[k]? = some p → i < p.key) →
    (∃ k p, HasAt t i k p ∧ segInfo t first i rel tr = .ok (.found (if rel then (if k = 0 then -t.firstInitTime else -p.time) else p.corr))) ∨
    (∀ k p, ¬HasAt t i k p) ∧ segInfo t first i rel tr = segInfo t first i rel .leaf := by
  intro tr
  induction tr with
  | leaf =>
    intro a n hw hle h1 h2
    have hn : n = 0 := by
      have := congrArg List.length hw
      simpa [Tree.walk] using this.symm
    refine .inr ⟨fun k p hk => ?_, rfl⟩
    obtain ⟨k1, k2, k3⟩ := hk
    by_cases hlt : k < a
    · have := h1 k p hlt k1; omega
    · have := h2 k p (by omega) k1; omega
  | node l m r ihl ihr =>
    intro a n hw hle h1 h2
    rw [Tree.walk] at hw
    have hlen := congrArg List.length hw
    rw [List.length_append, List.length_cons, List.length_range'] at hlen
    have hsplit : List.range' a n = List.range' a l.walk.length ++ (a + l.walk.length) :: List.range' (a + l.walk.length + 1) r.walk.length := by
      rw [← List.range'_succ, List.range'_append_1]
      congr 1; omega
    rw [hsplit] at hw
    obtain ⟨e1, e2⟩ := List.append_inj hw (by rw [List.length_range'])
    injection e2 with e2 e3
    have hmlt : m < t.periods.length := by omega
    have hm : t.periods[m]? = some t.periods[m] := List.getElem?_eq_getElem hmlt
    have hmono : ∀ (k : Nat) (p : Per) (k' : Nat) (p' : Per), k < k' → t.periods[k]? = some p → t.periods[k']? = some p' → p.key + p.count ≤ p'.key := by
      intro k p k' p' hlt hk hk'
      obtain ⟨q1, q2⟩ := List.getElem?_eq_some_iff.1 hk
      obtain ⟨q3, q4⟩ := List.getElem?_eq_some_iff.1 hk'
      rw [← q2, ← q4]
      exact List.pairwise_iff_getElem.1 hs k k' q1 q3 hlt
    unfold segInfo
    rw [hm]
    dsimp only
    split
    · rename_i hlt
      refine ihl a l.walk.length e1 (by omega) h1 (fun k p hk hkp => ?_)
      by_cases hkm : k = m
      · subst hkm; rw [hm] at hkp; injection hkp with hkp; rw [← hkp]; exact hlt
      · have := hmono m _ k p (by omega) hm hkp; omega
    · rename_i hge
      split
      · rename_i hlt
        exact .inl ⟨m, _, ⟨hm, by omega, hlt⟩, rfl⟩
      · rename_i hge2
        refine ihr (a + l.walk.length + 1) r.walk.length e3 (by omega) (fun k p hk hkp => ?_) (fun k p hk hkp => h2 k p (by omega) hkp)
        by_cases hkm : k = m
        · subst hkm; rw [hm] at hkp; injection hkp with hkp; rw [← hkp]; omega
        · have := hmono k p m _ (by omega) hkp hm; omega

/-- **C49.** A segment is found by its index exactly when the timeline has it, with the correction of its period; for every shape of the
tree. Else the answer tells whether the index is before the timeline. -/
theorem segment_found {mono : Bool} {s : Ch} {H : List Seg} (hr : Reach mono s H) {t : Tl} (ht : t ∈ s.tls) {tr : Tree}
    (hw : tr.walk = List.range t.periods.length) (first i : Nat) (rel : Bool) :
    (i ∈ ids t.periods → ∃ k p, HasAt t i k p ∧
      segInfo t first i rel tr = .ok (.found (if rel then (if k = 0 then -t.firstInitTime else -p.time) else p.corr))) ∧
    (i ∉ ids t.periods → segInfo t first i rel tr = .ok (match (ids t.periods).head? with
      | none => .empty
      | some j => if first ≤ i ∧ i < j then .removed else .notFound)) := by
  have h := reach_inv hr
  obtain ⟨i1, _, _⟩ := h.tls t ht
  have hk := segInfo_tree i1.sorted first i rel tr 0 t.periods.length
    (by rw [hw, List.range_eq_range']) (by omega) (fun k p hk => by omega) (fun k p hk hkp => by
      obtain ⟨q1, _⟩ := List.getElem?_eq_some_iff.1 hkp
      omega)
  have hiff : i ∈ ids t.periods ↔ ∃ k p, HasAt t i k p := by
    rw [mem_ids]
    constructor
    · rintro ⟨p, hp, h1, h2⟩
      obtain ⟨k, hk⟩ := List.getElem?_of_mem hp
      exact ⟨k, p, hk, h1, h2⟩
    · rintro ⟨k, p, h1, h2, h3⟩
      exact ⟨p, List.mem_of_getElem? h1, h2, h3⟩
  refine ⟨fun hi => ?_, fun hi => ?_⟩
  · rcases hk with ⟨k, p, h1, h2⟩ | ⟨h1, _⟩
    · exact ⟨k, p, h1, h2⟩
    · obtain ⟨k, p, h2⟩ := hiff.1 hi
      exact absurd h2 (h1 k p)
  · rcases hk with ⟨k, p, h1, h2⟩ | ⟨h1, h2⟩
    · exact absurd (hiff.2 ⟨k, p, h1⟩) hi
    · rw [h2]
      unfold segInfo
      cases e : t.periods with
      | nil => rfl
      | cons p ps =>
        have hp := (i1.good p (by rw [e]; simp)).pos
        have : (ids (p :: ps)).head? = some p.key := by
          rw [ids_cons]
          obtain ⟨c, hc⟩ : ∃ c, p.count = c + 1 := ⟨p.count - 1, by omega⟩
          rw [hc, List.range'_succ]; rfl
        rw [this]

end Verif.Timeline
