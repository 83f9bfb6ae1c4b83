import Verif.TimelineEnd

/-!
# Timelines: responses for delta playlists

Model of the part of `ngx_live_timeline_serve_write_periods` that leaves out the first segments of a playlist when the client has them
already.
-/

namespace Verif.Timeline

open Verif.SegmentList (SL Iter Seg Inv seq segs ahead Elt Tree TreeOf sub32 add32)

/-! ## Model -/

/-- `skip_boundary_percent` of the target duration (ngx_live_timeline.c:3356-3359); the product has 32 bits. -/
def boundary (pct target scale : Nat) : Nat := pct * (((target + scale / 2) % 2 ^ 32 / scale * scale) % 2 ^ 32) % 2 ^ 32 / 100

/-- A period, the ones before it from the last to the first, and the ones after it. -/
structure At where
  per : Per
  before : List Per
  after : List Per
  /-- `period_duration` -/
  pd : Nat
deriving Repr, DecidableEq

/-- The loop that finds the last period to show (ngx_live_timeline.c:3381-3417), from the last period; the result has `pending_duration`
too. `trailing_periods` and `trailing_segments` are the number and the segments of the periods passed. -/
def tailOf (q : Segs) (tr : Tree) (max : Nat) : List Per → List Per → Nat → Res (Option (At × Nat))
  | [], _, _ => .ok none
  | p :: ps, after, pend =>
    if max ≥ p.key + p.count then .ok (some (⟨p, ps, after, p.dur⟩, pend))
    else if max < p.key then tailOf q tr max ps (p :: after) (pend + p.dur)
    else match SegmentList.iterInit q.sl tr max true with
      | .ok (_, time) =>
        let pd := ((time - p.time) % 2 ^ 64).toNat
        .ok (some (⟨p, ps, after, pd⟩, pend + sub64 p.dur pd))
      | .err => .ok none
      | .ub => .ub

/-- The loop that finds the first period to show (ngx_live_timeline.c:3425-3440). -/
def backTo (out : Nat) (p : Per) (pd : Nat) (after : List Per) : List Per → Option (At × Nat)
  | [] => if out > pd then none else some (⟨p, [], after, pd⟩, out)
  | r :: ps => if out > pd then backTo (out - pd) r r.dur (p :: after) ps else some (⟨p, r :: ps, after, pd⟩, out)

/-- The changes of the header (ngx_live_timeline.c:3463-3485); `i` is the first segment that is shown, `c` the number of segments of its
period from there on. -/
def skipHdr (t : Tl) (h : Hdr) (a : At) (i c : Nat) : Hdr :=
  let sk := sub32 (sub32 t.man.perCount a.after.length) 1
  let h := { h with skipPer := sk, skipSegs := sub32 (sub32 t.man.segCount (counts a.after)) c }
  let h := if sk ≠ 0 then { h with firstIdx := add32 h.firstIdx sk, initTime := a.per.time, initIdx := a.per.key } else h
  if i > a.per.key then { h with lastSkip := i } else match a.before with
    | [] => h
    | r :: _ => { h with lastSkip := sub32 (r.key + r.count) 1 }

/-- `ngx_live_timeline_serve_skip_segments` (ngx_live_timeline.c:3331-3488): the period to begin with, the ones that follow, and the header. -/
def skip (ch : Ch) (t : Tl) (tr : Tree) (trk : Option Trk) (max pct : Nat) (h : Hdr) : Res (Option (Per × List Per × Hdr)) :=
  if ch.scale = 0 then .ub
  else
    let out := boundary pct t.man.target ch.scale
    if t.man.dur ≤ out ∨ out ≤ 0 then .ok none
    else
      let max := if pendingOn ch.next trk max then sub32 max 1 else max
      do
      match ← tailOf ch.segs tr max t.periods.reverse [] 0 with
      | none => .ok none
      | some (a, pend) =>
        if t.man.dur ≤ out + pend then .ok none
        else match backTo out a.per a.pd a.after a.before with
          | none => .ok none
          | some (a, out) => match SegmentList.getSegmentIndex ch.segs.sl tr (a.per.time + a.pd - out) false with
            | .err => .ok none
            | .ub => .ub
            | .ok (i, time, it) =>
              let p := { a.per with key := i, time, it := ch.segs.abs it, count := sub32 (a.per.key + a.per.count) i }
              .ok (some (p, a.after, skipHdr t h a i p.count))

/-- `ngx_live_timeline_serve_write_periods` with the flag `NGX_KSMP_FLAG_SKIP_SEGMENTS` (ngx_live_timeline.c:3515-3527). -/
def serveSkip (ch : Ch) (t : Tl) (tr : Tree) (segDur : Nat) (trk : Option Trk) (max pct : Nat) : Res (Hdr × List SPer) := do
  let h ← header ch t segDur trk max
  if h.endList then serve ch t segDur trk max
  else match ← skip ch t tr trk max pct h with
    | none => serve ch t segDur trk max
    | some (p, after, h) => do
      let ps ← writePers ch.segs ch.next trk max (p :: after)
      .ok ({ h with perCount := ps.length }, ps)

/-- What the client adds to the segments that it has. -/
def deltaRows (h : Hdr) (ps : List SPer) : List Row := numbered (h.seq + h.skipSegs) (srows h.firstIdx ps)

/-! ## Durations of what is written -/

/-- The duration of the segments of a period before an index. -/
def low (q : Segs) (max : Nat) (p : Per) : Nat := (((ahead q.sl (q.rel p.it)).take p.count).take (max - p.key)).sum

def lows (q : Segs) (max : Nat) (ps : List Per) : Nat := (ps.map (low q max)).sum

theorem low_eq {q : Segs} {max : Nat} {p : Per} {ds : List Nat} (h : PerOk q p ds) : low q max p = (ds.take (max - p.key)).sum := by
  obtain ⟨⟨_, _, A, C, _, e2⟩, hc, _, _⟩ := h
  unfold low
  rw [e2, hc, List.take_left]

theorem sum_take_le (ds : List Nat) : ∀ n, (ds.take n).sum ≤ ds.sum := by
  induction ds with
  | nil => simp
  | cons d ds ih =>
    intro n
    cases n with
    | zero => simp
    | succ n => rw [List.take_succ_cons, List.sum_cons, List.sum_cons]; have := ih n; omega

theorem sum_take_mono (ds : List Nat) {n m : Nat} (h : n ≤ m) : (ds.take n).sum ≤ (ds.take m).sum := by
  have := sum_take_le (ds.take m) n
  rwa [List.take_take, Nat.min_eq_left h] at this

theorem low_le {q : Segs} {max : Nat} {p : Per} (h : Good q p) : low q max p ≤ p.dur := by
  obtain ⟨ds, h⟩ := h
  rw [low_eq h, h.dur]
  exact sum_take_le ..

theorem low_full {q : Segs} {max : Nat} {p : Per} (h : Good q p) (hm : p.key + p.count ≤ max) : low q max p = p.dur := by
  obtain ⟨ds, h⟩ := h
  rw [low_eq h, h.dur, List.take_of_length_le]
  have := h.count
  omega

theorem low_zero {q : Segs} {max : Nat} {p : Per} (hm : max ≤ p.key) : low q max p = 0 := by
  unfold low
  rw [show max - p.key = 0 by omega, List.take_zero]; rfl

theorem lows_zero {q : Segs} {max : Nat} {ps : List Per} (h : ∀ p ∈ ps, max ≤ p.key) : lows q max ps = 0 := by
  induction ps with
  | nil => rfl
  | cons p ps ih =>
    show low q max p + lows q max ps = 0
    rw [low_zero (h p (by simp)), ih (fun r hr => h r (List.mem_cons_of_mem _ hr))]

/-- The duration that a response shows. -/
def showDur (ps : List SPer) : Nat := (ps.map fun p => (SegmentList.durs p.elts).sum).sum

theorem showDur_eq (ps : List SPer) : showDur ps = ((ps.flatMap SPer.segs).map (·.dur)).sum := by
  induction ps with
  | nil => rfl
  | cons p ps ih =>
    show (SegmentList.durs p.elts).sum + showDur ps = _
    rw [List.flatMap_cons, List.map_append, List.sum_append, ih]
    unfold SPer.segs
    rw [SegmentList.seq_durs]

/-- The index of the last complete segment. -/
def complete (next : Nat) (trk : Option Trk) (max : Nat) : Nat := if pendingOn next trk max then sub32 max 1 else max

theorem writePers_dur {mono : Bool} {q : Segs} (h : Inv mono q.sl) (next : Nat) (trk : Option Trk) (max : Nat) (hq : hi q < 2 ^ 32)
    (hm : pendingOn next trk max = true → 0 < max) :
    ∀ (ps : List Per) {pers : List SPer}, (∀ p ∈ ps, Good q p) → ps.Pairwise (fun p r => p.key + p.count ≤ r.key) →
    writePers q next trk max ps = .ok pers → lows q (complete next trk max) ps ≤ showDur pers
  | [], pers, _, _, _ => by simp [lows]
  | p :: ps, pers, hg, hs, hw => by
    obtain ⟨ds, hp⟩ := hg p (by simp)
    have hpos := Good.pos ⟨ds, hp⟩
    have hle := Good.le_hi h ⟨ds, hp⟩
    have hcount := hp.count
    obtain ⟨hs1, hs2⟩ := List.pairwise_cons.1 hs
    have hlast : sub32 (p.key + p.count) 1 = p.key + p.count - 1 := by unfold sub32; rw [if_pos (by omega)]
    have hmx : complete next trk max ≤ max ∧ (pendingOn next trk max = true → complete next trk max = max - 1) := by
      unfold complete
      split
      · rename_i hpd
        have := hm hpd
        unfold sub32; rw [if_pos (by omega)]; exact ⟨by omega, fun _ => rfl⟩
      · rename_i hpd; exact ⟨Nat.le_refl _, fun e => absurd e hpd⟩
    have hz : ∀ r ∈ ps, complete next trk max < p.key + p.count → complete next trk max ≤ r.key := fun r hr hlt => by
      have := hs1 r hr; omega
    show low q _ p + lows q _ ps ≤ _
    rw [writePers] at hw
    split at hw
    · rename_i hk
      rw [low_zero (by omega), lows_zero (fun r hr => by have := hs1 r hr; omega)]
      omega
    · dsimp only at hw
      rw [hlast] at hw
      split at hw
      · rename_i hc
        have hcm := hmx.2 hc.2
        have := hm hc.2
        rw [lows_zero (fun r hr => hz r hr (by omega)), low_eq hp]
        split at hw
        · rw [show complete next trk max - p.key = 0 by omega]; simp
        · obtain ⟨es, w1, w2⟩ := hp.write h (left := max - p.key) (by omega) (by omega)
          rw [w1] at hw
          simp only [Res.bind_ok] at hw
          injection hw with hw
          subst hw
          show _ ≤ (SegmentList.durs (es ++ _)).sum + 0
          rw [SegmentList.durs_append, w2, List.sum_append]
          have := sum_take_mono ds (n := complete next trk max - p.key) (m := max - p.key) (by omega)
          omega
      · rename_i hc
        have hn : (if p.key + p.count - 1 ≥ max then max else p.key + p.count - 1) - p.key + 1 = min p.count (max + 1 - p.key) := by
          split <;> omega
        rw [hn] at hw
        obtain ⟨es, w1, w2⟩ := hp.write h (left := min p.count (max + 1 - p.key)) (by omega) (by omega)
        rw [w1] at hw
        simp only [Res.bind_ok] at hw
        obtain ⟨rest, e1, hw⟩ := bind_eq_ok hw
        injection hw with hw
        subst hw
        have ih := writePers_dur h next trk max hq hm ps (fun r hr => hg r (List.mem_cons_of_mem _ hr)) hs2 e1
        show _ ≤ (SegmentList.durs es).sum + showDur rest
        rw [w2, low_eq hp]
        have : (ds.take (complete next trk max - p.key)).sum ≤ (ds.take (min p.count (max + 1 - p.key))).sum := by
          by_cases hcc : complete next trk max - p.key ≤ min p.count (max + 1 - p.key)
          · exact sum_take_mono ds hcc
          · rw [show min p.count (max + 1 - p.key) = ds.length by omega, List.take_length]
            exact sum_take_le ..
        omega

/-! ## The two loops -/

/-- The segment of a period that has an index. -/
theorem PerOk.at {q : Segs} {p : Per} {ds : List Nat} (hp : PerOk q p ds) {n : Nat} (hn : n < ds.length) :
    ∃ A C, segs q.sl = A ++ ⟨p.key + n, p.time + ((ds.take n).sum : Nat), ds[n]⟩ :: C ∧ C.map (·.dur) = ds.drop (n + 1) ++ (C.drop (ds.length - (n + 1))).map (·.dur) ∧
      segs q.sl = A ++ (seq (p.key + n) (p.time + ((ds.take n).sum : Nat)) (ds.drop n) ++ C.drop (ds.length - (n + 1))) := by
  obtain ⟨⟨_, _, A, C, e1, _⟩, _⟩ := hp
  have hd : ds.drop n = ds[n] :: ds.drop (n + 1) := List.drop_eq_getElem_cons hn
  have hs : seq p.key p.time ds = seq p.key p.time (ds.take n) ++ seq (p.key + n) (p.time + ((ds.take n).sum : Nat)) (ds.drop n) := by
    conv => lhs; rw [← List.take_append_drop n ds, SegmentList.seq_append, List.length_take, Nat.min_eq_left (by omega)]
  have hl : (seq (p.key + n + 1) (p.time + ((ds.take n).sum : Nat) + (ds[n] : Nat)) (ds.drop (n + 1))).length = ds.length - (n + 1) := by
    rw [SegmentList.seq_length, List.length_drop]
  refine ⟨A ++ seq p.key p.time (ds.take n), seq (p.key + n + 1) (p.time + ((ds.take n).sum : Nat) + (ds[n] : Nat)) (ds.drop (n + 1)) ++ C, ?_, ?_, ?_⟩
  · rw [e1, hs, hd, seq]; simp
  · rw [List.drop_left' hl, List.map_append, SegmentList.seq_durs]
  · rw [List.drop_left' hl, e1, hs]; simp

structure AtOk (q : Segs) (ps : List Per) (max : Nat) (a : At) : Prop where
  split : ps = a.before.reverse ++ a.per :: a.after
  pd : a.pd = low q max a.per

theorem tailOf_spec {mono : Bool} {q : Segs} (h : Inv mono q.sl) {tr : Tree} (ht : TreeOf q.sl tr) (max : Nat) {ps : List Per} (hg : ∀ p ∈ ps, Good q p)
    (hd : ∀ p ∈ ps, p.dur < 2 ^ 64) :
    ∀ (l after : List Per) (pend : Nat), ps = l.reverse ++ after → pend = durs after → (∀ r ∈ after, max < r.key) →
    ∃ o, tailOf q tr max l after pend = .ok o ∧ ∀ a e, o = some (a, e) → AtOk q ps max a ∧ e = durs a.after + (a.per.dur - a.pd) ∧
      (∀ r ∈ a.after, max < r.key) ∧ a.per.key ≤ max
  | [], after, pend, _, _, _ => ⟨none, rfl, fun a e h => nomatch h⟩
  | p :: l, after, pend, hps, hpe, ha => by
    have hps' : ps = l.reverse ++ (p :: after) := by rw [hps]; simp
    have hpm : p ∈ ps := by rw [hps']; simp
    have hgp := hg p hpm
    rw [tailOf]
    split
    · rename_i hfull
      refine ⟨_, rfl, fun a e he => ?_⟩
      injection he with he; injection he with e1 e2
      subst e1; subst e2
      exact ⟨⟨hps', (low_full hgp hfull).symm⟩, by dsimp only; rw [hpe]; omega, ha, by dsimp only; omega⟩
    · rename_i hnf
      split
      · rename_i hlt
        exact tailOf_spec h ht max hg hd l (p :: after) (pend + p.dur) hps' (by rw [hpe, durs_cons]; omega)
          (fun r hr => by rcases List.mem_cons.1 hr with e | hr; exact e ▸ hlt; exact ha r hr)
      · rename_i hge
        obtain ⟨ds, hp⟩ := hgp
        have hc := hp.count
        obtain ⟨A, C, e1, _, _⟩ := hp.at (n := max - p.key) (by omega)
        obtain ⟨it, i1, _, _⟩ := SegmentList.iterInit_found h ht e1 true
        dsimp only at i1
        rw [show p.key + (max - p.key) = max by omega] at i1
        rw [i1]
        refine ⟨_, rfl, fun a e he => ?_⟩
        have hsum : (ds.take (max - p.key)).sum ≤ p.dur := by rw [hp.dur]; exact sum_take_le ..
        have hlt := hd p hpm
        have e2 : ((p.time + ((ds.take (max - p.key)).sum : Nat) - p.time) % 2 ^ 64).toNat = (ds.take (max - p.key)).sum := by omega
        injection he with he; injection he with e3 e4
        subst e3; subst e4
        refine ⟨⟨hps', ?_⟩, ?_, ha, by dsimp only; omega⟩
        · dsimp only; rw [e2, low_eq hp]
        · dsimp only; rw [e2, sub64_ok hsum, hpe]

theorem backTo_spec {q : Segs} (max : Nat) {ps : List Per} (hg : ∀ p ∈ ps, Good q p) (hs : ps.Pairwise (fun p r => p.key + p.count ≤ r.key)) :
    ∀ (l : List Per) (out : Nat) (p : Per) (pd : Nat) (after : List Per) (out0 pend : Nat), AtOk q ps max ⟨p, l, after, pd⟩ → 0 < out →
    out0 = out + lows q max after → out0 + pend = out + durs after + (p.dur - pd) → p.key ≤ max →
    ∀ a e, backTo out p pd after l = some (a, e) → AtOk q ps max a ∧ 0 < e ∧ e ≤ a.pd ∧ out0 = e + lows q max a.after ∧
      out0 + pend = e + durs a.after + (a.per.dur - a.pd) ∧ a.per.key ≤ max
  | [], out, p, pd, after, out0, pend, hat, h0, h1, h2, hk, a, e, he => by
    unfold backTo at he
    split at he
    · cases he
    · injection he with he; injection he with e1 e2
      subst e1; subst e2
      exact ⟨hat, h0, by dsimp only; omega, h1, h2, hk⟩
  | r :: l, out, p, pd, after, out0, pend, hat, h0, h1, h2, hk, a, e, he => by
    unfold backTo at he
    split at he
    · rename_i hgt
      obtain ⟨hsp, hpd⟩ := hat
      dsimp only at hsp hpd
      have hsp' : ps = l.reverse ++ r :: (p :: after) := by rw [hsp]; simp
      have hrp : r.key + r.count ≤ p.key := by
        rw [hsp'] at hs
        exact (List.pairwise_cons.1 (List.pairwise_append.1 hs).2.1).1 p (by simp)
      have hgr := hg r (by rw [hsp']; simp)
      have hlow := low_le (max := max) (hg p (by rw [hsp']; simp))
      refine backTo_spec max hg hs l (out - pd) r r.dur (p :: after) out0 pend ⟨hsp', (low_full hgr (by omega)).symm⟩ (by omega) ?_ ?_ (by omega) a e he
      · show out0 = out - pd + (low q max p + lows q max after)
        rw [← hpd]; omega
      · rw [durs_cons]; omega
    · injection he with he; injection he with e1 e2
      subst e1; subst e2
      exact ⟨hat, h0, by dsimp only; omega, h1, h2, hk⟩

/-! ## The segment to begin with -/

/-- A time in a period is in one of its segments. -/
theorem seq_has : ∀ (ds : List Nat) (x : Nat), x < ds.sum → ∃ n, ∃ h : n < ds.length, (ds.take n).sum ≤ x ∧ x < (ds.take n).sum + ds[n]
  | [], x, h => by simp at h
  | d :: ds, x, h => by
    rw [List.sum_cons] at h
    by_cases hx : x < d
    · exact ⟨0, by simp, by simp, by simpa using hx⟩
    · obtain ⟨n, h1, h2, h3⟩ := seq_has ds (x - d) (by omega)
      refine ⟨n + 1, by simp; omega, ?_, ?_⟩
      · rw [List.take_succ_cons, List.sum_cons]; omega
      · rw [List.take_succ_cons, List.sum_cons, List.getElem_cons_succ]; omega

theorem begin_at {q : Segs} (h : Inv true q.sl) {tr : Tree} (ht : TreeOf q.sl tr) {p : Per} {ds : List Nat} (hp : PerOk q p ds) {x : Nat} (hx : x < ds.sum) :
    ∃ n, n < ds.length ∧ (ds.take n).sum ≤ x ∧ x < (ds.take (n + 1)).sum ∧
      ∃ it, SegmentList.getSegmentIndex q.sl tr (p.time + x) false = .ok (p.key + n, p.time + ((ds.take n).sum : Nat), it) ∧
      Span q (q.abs it) (p.key + n) (p.time + ((ds.take n).sum : Nat)) (ds.drop n) := by
  obtain ⟨n, hn, h1, h2⟩ := seq_has ds x hx
  obtain ⟨A, C, e1, e2, e3⟩ := hp.at hn
  refine ⟨n, hn, h1, by rw [List.take_add_one, List.getElem?_eq_getElem hn, List.sum_append]; show x < _ + (ds[n] + 0); omega, ?_⟩
  have huniq : ∀ k ∈ segs q.sl, k.time ≤ p.time + x → p.time + x < k.time + (k.dur : Nat) →
      k = ⟨p.key + n, p.time + ((ds.take n).sum : Nat), ds[n]⟩ := by
    intro k hk k1 k2
    have hpw := SegmentList.segs_times h
    rw [e1] at hpw hk
    obtain ⟨_, p2, p3⟩ := List.pairwise_append.1 hpw
    rcases List.mem_append.1 hk with hk | hk
    · have := p3 k hk _ (List.mem_cons_self); dsimp only at this; omega
    · rcases List.mem_cons.1 hk with hk | hk
      · exact hk
      · have := (List.pairwise_cons.1 p2).1 k hk; dsimp only at this; omega
  rcases SegmentList.getSegmentIndex_spec h ht (p.time + x) false with ⟨_, k2⟩ | ⟨a', g', c', y, it, k1, k2, k3, ⟨k4, k5⟩, _, k6, _⟩
  · exact absurd ⟨by dsimp only; omega, by dsimp only; omega⟩ (k2 _ (by rw [e1]; exact List.mem_append_right _ List.mem_cons_self))
  · have e := huniq g' (by rw [k1]; simp) (by omega) (by omega)
    subst e
    have hc := SegmentList.after_unique h k1 e1
    have hu : SegmentList.up false y ds[n] = 0 := by unfold SegmentList.up; simp
    dsimp only at k6
    rw [hu] at k6
    refine ⟨it, by rw [k6]; simp, abs_base q it, by rw [rel_abs]; exact k4, A, C.drop (ds.length - (n + 1)), e3, ?_⟩
    rw [rel_abs, k5, hc, List.map_cons, e2, List.drop_eq_getElem_cons hn]
    rfl

/-! ## The rows that are left -/

theorem filter_drop {P : Nat × Nat → Bool} : ∀ (n : Nat) (l : List (Nat × Nat)), l.Pairwise (fun a b => P b = true → P a = true) →
    (l.drop n).filter P = (l.filter P).drop n
  | 0, l, _ => rfl
  | n + 1, [], _ => rfl
  | n + 1, x :: l, h => by
    obtain ⟨h1, h2⟩ := List.pairwise_cons.1 h
    rw [List.drop_succ_cons, List.filter_cons, filter_drop n l h2]
    split
    · rfl
    · rename_i hx
      have : l.filter P = [] := List.filter_eq_nil_iff.2 (fun r hr he => hx (h1 r hr he))
      rw [this]; simp

theorem rowsFrom_append : ∀ (d : Nat) (M N : List Per), rowsFrom d (M ++ N) = rowsFrom d M ++ rowsFrom (d + M.length) N
  | d, [], N => rfl
  | d, p :: M, N => by
    rw [List.cons_append, rowsFrom, rowsFrom, rowsFrom_append (d + 1) M N, List.append_assoc, List.length_cons, show d + 1 + M.length = d + (M.length + 1) by omega]

/-- Rows from the middle of a period. -/
theorem rowsFrom_skip (d : Nat) (M after : List Per) {p o : Per} (h1 : p.key ≤ o.key) (h2 : o.key + o.count = p.key + p.count) :
    rowsFrom (d + M.length) (o :: after) = (rowsFrom d (M ++ p :: after)).drop (counts M + (p.count - o.count)) := by
  rw [rowsFrom_append, List.drop_append, rowsFrom_length, List.drop_eq_nil_of_le (by rw [rowsFrom_length]; omega), List.nil_append,
    show counts M + (p.count - o.count) - counts M = p.count - o.count by omega, rowsFrom, rowsFrom, List.drop_append_of_le_length (by simp)]
  congr 1
  rw [← List.map_drop, List.drop_range', show p.count - (p.count - o.count) = o.count by omega, show p.key + (p.count - o.count) * 1 = o.key by omega]

theorem per_dur_lt {mono : Bool} {q : Segs} (h : Inv mono q.sl) {p : Per} (hg : Good q p) : p.dur < 2 ^ 64 := by
  have hb : ∀ g ∈ segs q.sl, -SegmentList.B ≤ g.time ∧ g.time + (g.dur : Nat) ≤ SegmentList.B := by
    intro g hg
    obtain ⟨n, hn, hgn⟩ := List.mem_flatMap.1 hg
    obtain ⟨_, _, h3, h4⟩ := SegmentList.seq_mem _ _ _ _ hgn
    have h5 := (h.ok n hn).lo
    have h6 := (h.ok n hn).hi
    unfold SegmentList.Node.fin at h6
    omega
  obtain ⟨ds, hp⟩ := hg
  obtain ⟨g, g1, _, g2⟩ := hp.last_mem
  obtain ⟨A, C, e, _, _⟩ := hp.at (n := 0) (List.length_pos_iff.2 hp.ne)
  have k1 := (hb _ (by rw [e]; exact List.mem_append_right _ List.mem_cons_self)).1
  have k2 := (hb g g1).2
  unfold SegmentList.B at k1 k2
  simp at k1
  omega

theorem writePers_nodur (q : Segs) (next : Nat) (trk : Option Trk) (max : Nat) (p : Per) (ps : List Per) (x : Nat) :
    writePers q next trk max ({ p with dur := x } :: ps) = writePers q next trk max (p :: ps) := by
  rw [writePers, writePers]

/-- What is known when segments are left out: the periods `M` of the playlist before the period `p` that begins the response. -/
structure Skipped (ch : Ch) (t : Tl) (trk : Option Trk) (max pct : Nat) (h : Hdr) (o : Per) (after : List Per) (h' : Hdr) (M : List Per) (p : Per) : Prop where
  shown : shown t.periods t.man = M ++ p :: after
  lo : p.key ≤ o.key
  hi : o.key + o.count = p.key + p.count
  good : Good ch.segs o
  dur : boundary pct t.man.target ch.scale ≤ lows ch.segs (complete ch.next trk max) (o :: after)
  le : o.key ≤ max
  per : h'.skipPer = M.length
  segs : h'.skipSegs = counts M + (p.count - o.count)
  first : h'.firstIdx = h.firstIdx + M.length
  rest : h'.avail = h.avail ∧ h'.seq = h.seq ∧ h'.target = h.target ∧ h'.endList = h.endList ∧ h'.lastMod = h.lastMod

/-- The beginning of the playlist in its period. -/
theorem first_time {mono : Bool} {q : Segs} (h : Inv mono q.sl) {ps : List Per} {m : Man} {A : List Per} {p : Per} {R : List Per} {ds es : List Nat}
    (hb : Begins q ps m A p R ds) (hp : PerOk q p es) :
    p.dur = m.first.dur + (es.take (m.first.key - p.key)).sum ∧ m.first.dur ≤ p.dur := by
  have h0 := hp.same_end h hb.hf hb.hi.symm
  obtain ⟨A1, C1, q1, _, _⟩ := hp.at (n := m.first.key - p.key) (by
    have := hp.count; have := hb.hi; have := hb.lo; have := Good.pos ⟨_, hb.hf⟩; omega)
  obtain ⟨A2, C2, q2, _, _⟩ := hb.hf.at (n := 0) (List.length_pos_iff.2 hb.hf.ne)
  have := seg_unique h (g := ⟨p.key + (m.first.key - p.key), _, _⟩) (by rw [q1]; exact List.mem_append_right _ List.mem_cons_self)
    (k := ⟨m.first.key + 0, _, _⟩) (by rw [q2]; exact List.mem_append_right _ List.mem_cons_self) (by have := hb.lo; dsimp only; omega)
  injection this with _ this _
  simp at this
  omega

theorem skipHdr_spec (t : Tl) (h : Hdr) (a : At) (i c : Nat) {m : Nat} (h1 : t.man.perCount = m + 1 + a.after.length) (h2 : h.firstIdx + m < 2 ^ 32) :
    (skipHdr t h a i c).skipPer = m ∧ (skipHdr t h a i c).skipSegs = sub32 (sub32 t.man.segCount (counts a.after)) c ∧
    (skipHdr t h a i c).firstIdx = h.firstIdx + m ∧ (skipHdr t h a i c).avail = h.avail ∧ (skipHdr t h a i c).seq = h.seq ∧
    (skipHdr t h a i c).target = h.target ∧ (skipHdr t h a i c).endList = h.endList ∧ (skipHdr t h a i c).lastMod = h.lastMod := by
  have e : sub32 (sub32 t.man.perCount a.after.length) 1 = m := by
    rw [sub32_ok (a := t.man.perCount) (by omega), sub32_ok (by omega)]; omega
  have e2 : add32 h.firstIdx m = h.firstIdx + m := SegmentList.add32_ok h2
  unfold skipHdr
  dsimp only
  rw [e, e2]
  by_cases hm : m = 0
  · subst hm
    rw [if_neg (show ¬((0 : Nat) ≠ 0) by simp)]
    split
    · exact ⟨rfl, rfl, rfl, rfl, rfl, rfl, rfl, rfl⟩
    · split <;> exact ⟨rfl, rfl, rfl, rfl, rfl, rfl, rfl, rfl⟩
  · rw [if_pos hm]
    split
    · exact ⟨rfl, rfl, rfl, rfl, rfl, rfl, rfl, rfl⟩
    · split <;> exact ⟨rfl, rfl, rfl, rfl, rfl, rfl, rfl, rfl⟩

theorem sum_drop_take (ds : List Nat) (n k : Nat) : ((ds.drop n).take k).sum + (ds.take n).sum = (ds.take (n + k)).sum := by
  rw [List.take_add, List.sum_append]; omega

theorem skip_spec {ch : Ch} {H : List Seg} (h : ChInv true ch H) {t : Tl} (ht : t ∈ ch.tls) (hc : 0 < t.man.segCount) {tr : Tree}
    (htr : TreeOf ch.segs.sl tr) (hsc : 0 < ch.scale) (trk : Option Trk) (max pct : Nat) (hm : pendingOn ch.next trk max = true → 0 < max) (hd : Hdr)
    (hf : hd.firstIdx = t.man.firstIdx) :
    ∃ r, skip ch t tr trk max pct hd = .ok r ∧ ∀ o after h', r = some (o, after, h') → ∃ M p x, Skipped ch t trk max pct hd { o with dur := x } after h' M p := by
  obtain ⟨i1, i2, _⟩ := h.tls t ht
  obtain ⟨A, p0, R, ds0, hb⟩ := i1.man.begins hc
  have hshown := hb.shown i1.pids
  have hmd := hb.cd
  have hms := hb.cs
  have hmp := hb.cp
  unfold skip
  rw [if_neg (by omega)]
  dsimp only
  split
  · exact ⟨_, rfl, fun o after h' e => nomatch e⟩
  · rename_i hout
    have hmx : complete ch.next trk max ≤ max := by
      unfold complete
      split
      · rename_i hpd
        have := hm hpd
        unfold sub32; rw [if_pos (by omega)]; omega
      · exact Nat.le_refl _
    rw [show (if pendingOn ch.next trk max = true then sub32 max 1 else max) = complete ch.next trk max from rfl]
    obtain ⟨r1, e1, t1⟩ := tailOf_spec h.inv htr (complete ch.next trk max) i1.good (fun p hp => per_dur_lt h.inv (i1.good p hp)) t.periods.reverse [] 0
      (by simp) rfl (by simp)
    rw [e1]
    simp only [Res.bind_ok]
    cases r1 with
    | none => exact ⟨_, rfl, fun o after h' e => nomatch e⟩
    | some ae =>
      obtain ⟨a, pend⟩ := ae
      obtain ⟨t2, t3, t4, t5⟩ := t1 a pend rfl
      dsimp only
      split
      · exact ⟨_, rfl, fun o after h' e => nomatch e⟩
      · rename_i hmore
        cases e2 : backTo (boundary pct t.man.target ch.scale) a.per a.pd a.after a.before with
        | none => exact ⟨_, rfl, fun o after h' e => nomatch e⟩
        | some be =>
          obtain ⟨b, out⟩ := be
          obtain ⟨⟨b1, b2⟩, b3, b4, b5, b6, b7⟩ := backTo_spec (q := ch.segs) (complete ch.next trk max) i1.good i1.sorted a.before _ a.per a.pd a.after _ pend t2
            (by omega) (by rw [lows_zero (fun r hr => by have := t4 r hr; omega)]) (by rw [t3]; omega) t5 b out e2
          dsimp only
          have hbm : b.per ∈ t.periods := by rw [b1]; simp
          obtain ⟨ds, hp⟩ := i1.good _ hbm
          have hlow := low_eq (max := complete ch.next trk max) hp
          have hlo := low_le (max := complete ch.next trk max) ⟨ds, hp⟩
          have hpc := hp.count
          have hpd := hp.dur
          obtain ⟨n, n1, n2, n3, it, n4, n5⟩ := begin_at h.inv htr hp (x := b.pd - out) (by omega)
          rw [show b.per.time + (b.pd : Int) - (out : Int) = b.per.time + ((b.pd - out : Nat) : Int) by omega, n4]
          dsimp only
          refine ⟨_, rfl, fun o after h' e => ?_⟩
          injection e with e
          injection e with o1 e
          injection e with o2 o3
          have hlt := Good.le_hi h.inv ⟨ds, hp⟩
          have htop := h.top
          have hcnt : sub32 (b.per.key + b.per.count) (b.per.key + n) = b.per.count - n := by unfold sub32; rw [if_pos (by omega)]; omega
          rw [hcnt] at o1 o3
          -- the period is one of the playlist
          have hM : (b.per = p0 ∧ b.after = R) ∨ ∃ M, R = M ++ b.per :: b.after := by
            have e3 := b1.symm.trans hb.hp
            rcases List.append_eq_append_iff.1 e3 with ⟨M, m1, m2⟩ | ⟨M, m1, m2⟩
            · cases M with
              | nil => injection m2 with m2 m3; exact .inl ⟨m2, m3⟩
              | cons x M =>
                exfalso
                injection m2 with m2 m3
                have m3 : b.after = M ++ p0 :: R := m3
                have hd1 : durs b.after = durs M + (p0.dur + durs R) := by rw [m3, durs_append, durs_cons]
                obtain ⟨ds1, hp1⟩ := i1.good p0 (by rw [hb.hp]; simp)
                have := (first_time h.inv hb hp1).2
                omega
            · cases M with
              | nil => injection m2 with m2 m3; exact .inl ⟨m2.symm, m3.symm⟩
              | cons x M => injection m2 with m2 m3; exact .inr ⟨M, m3⟩
          have hlen : (ds.drop n).length = b.per.count - n := by rw [List.length_drop]; omega
          have hgood : PerOk ch.segs { o with dur := (ds.drop n).sum } (ds.drop n) := by
            rw [← o1]
            exact ⟨n5, hlen.symm, rfl, fun e => by rw [e] at hlen; simp at hlen; omega⟩
          have hnm : n ≤ complete ch.next trk max - b.per.key := by
            rcases Nat.lt_or_ge (complete ch.next trk max - b.per.key) n with hlt | hge
            · have := sum_take_mono ds (Nat.le_of_lt hlt); omega
            · exact hge
          have hdur : boundary pct t.man.target ch.scale ≤ lows ch.segs (complete ch.next trk max) ({ o with dur := (ds.drop n).sum } :: after) := by
            show _ ≤ low ch.segs _ _ + lows ch.segs _ after
            rw [low_eq hgood]
            have hk : o.key = b.per.key + n := by rw [← o1]
            have := sum_drop_take ds n (complete ch.next trk max - (b.per.key + n))
            rw [show n + (complete ch.next trk max - (b.per.key + n)) = complete ch.next trk max - b.per.key by omega] at this
            dsimp only
            rw [hk, ← o2]
            omega
          have hbnd := i2.per
          rcases hM with ⟨m1, m2⟩ | ⟨M, hM⟩
          · -- the first period of the playlist
            have hft := (first_time h.inv hb (es := ds) (m1 ▸ hp)).1
            have hfk : t.man.first.key ≤ b.per.key + n := by
              rcases Nat.lt_or_ge n (t.man.first.key - p0.key) with hlt | hge
              · exfalso
                have := sum_take_mono ds (n := n + 1) (m := t.man.first.key - p0.key) (by omega)
                rw [m2, m1] at b6
                rw [m1] at hlo
                omega
              · rw [m1]; omega
            have hhi := hb.hi
            rw [← m1] at hhi
            obtain ⟨s1, s2, s3, s4, s5, s6, s7, s8⟩ := skipHdr_spec t hd b (b.per.key + n) (b.per.count - n) (m := 0) (by rw [m2]; omega) (by rw [hf]; omega)
            rw [o3] at s1 s2 s3 s4 s5 s6 s7 s8
            refine ⟨[], t.man.first, (ds.drop n).sum, ?_, ?_, ?_, ⟨_, hgood⟩, hdur, ?_, s1, ?_, s3, s4, s5, s6, s7, s8⟩
            · rw [hshown, ← o2, m2]; rfl
            · rw [← o1]; exact hfk
            · rw [← o1]; dsimp only; omega
            · rw [← o1]; dsimp only; omega
            · rw [s2, m2]
              rw [← o1]
              rw [sub32_ok (a := t.man.segCount) (by omega), sub32_ok (by omega)]
              show _ = 0 + (t.man.first.count - (b.per.count - n))
              omega
          · have hRl : R.length = M.length + 1 + b.after.length := by rw [hM]; simp; omega
            have hRc : counts R = counts M + (b.per.count + counts b.after) := by rw [hM, counts_append, counts_cons]
            obtain ⟨s1, s2, s3, s4, s5, s6, s7, s8⟩ := skipHdr_spec t hd b (b.per.key + n) (b.per.count - n) (m := M.length + 1) (by omega) (by rw [hf]; omega)
            rw [o3] at s1 s2 s3 s4 s5 s6 s7 s8
            refine ⟨t.man.first :: M, b.per, (ds.drop n).sum, ?_, ?_, ?_, ⟨_, hgood⟩, hdur, ?_, s1, ?_, s3, s4, s5, s6, s7, s8⟩
            · rw [hshown, ← o2, hM]; rfl
            · rw [← o1]; dsimp only; omega
            · rw [← o1]; dsimp only; omega
            · rw [← o1]; dsimp only; omega
            · rw [s2, ← o1, counts_cons]
              dsimp only
              rw [sub32_ok (a := t.man.segCount) (by omega), sub32_ok (by omega)]
              omega

/-! ## Theorems -/

theorem rows_closed {ps : List Per} {d max : Nat} (hs : ps.Pairwise (fun p r => p.key + p.count ≤ r.key)) :
    (rowsFrom d ps).Pairwise (fun a b => decide (b.1 ≤ max) = true → decide (a.1 ≤ max) = true) :=
  (rowsFrom_sorted _ _ hs).imp (fun {a b} hab hb => by
    have hb : b.1 ≤ max := of_decide_eq_true hb
    exact decide_eq_true (by omega))

/-- **C51.** The response for a delta playlist is the one for the full playlist without the segments at its beginning that the header
counts, with the same numbers; their times and durations are exact. Some segment is left when any is left out, and those that are left have
together at least the duration of the skip boundary. The times of segments do not go back, and a pending segment has not index 0.

Missing for the whole property: the header names the last segment that was left out; it does not always (`last_skipped_fails`). -/
theorem delta_partial {s : Ch} {H : List Seg} (hr : Reach true s H) {t : Tl} (ht : t ∈ s.tls) (hc : 0 < t.man.segCount) {tr : Tree}
    (htr : TreeOf s.segs.sl tr) (hsc : 0 < s.scale) (sd : Nat) (trk : Option Trk) (max pct : Nat) (hm : pendingOn s.next trk max = true → 0 < max) :
    ∃ hd ps hd' ps', serve s t sd trk max = .ok (hd, ps) ∧ serveSkip s t tr sd trk max pct = .ok (hd', ps') ∧
      deltaRows hd' ps' = (clientRows hd ps).drop hd'.skipSegs ∧ hd'.perCount = ps'.length ∧
      (∀ p ∈ ps', ∀ g ∈ p.segs, ∃ k ∈ H, k.idx = g.idx ∧ k.time = g.time ∧ (g.dur = k.dur ∨ g.dur = 0 ∧ g.idx = max ∧ pendingOn s.next trk max = true)) ∧
      (0 < hd'.skipSegs → hd'.endList = false ∧ deltaRows hd' ps' ≠ [] ∧
        boundary pct t.man.target s.scale ≤ ((ps'.flatMap SPer.segs).map (·.dur)).sum) ∧
      hd'.avail = hd.avail ∧ hd'.seq = hd.seq ∧ hd'.target = hd.target ∧ hd'.endList = hd.endList ∧ hd'.lastMod = hd.lastMod := by
  have h := reach_inv hr
  obtain ⟨i1, i2, _⟩ := h.tls t ht
  obtain ⟨hd, ps, e1, e2, e3, e4, e5⟩ := response_exact hr ht hc sd trk max
  have hserve := e1
  unfold serve at e1
  obtain ⟨hh, f1, e1⟩ := bind_eq_ok e1
  obtain ⟨w, f2, e1⟩ := bind_eq_ok e1
  injection e1 with e1
  injection e1 with g1 g2
  have hfirst : hh.firstIdx = t.man.firstIdx ∧ hh.seq = sub32 t.man.sequence t.man.segCount ∧ hh.skipSegs = 0 := by
    unfold header at f1
    obtain ⟨b, _, f1⟩ := bind_eq_ok f1
    injection f1 with f1
    rw [← f1]
    exact ⟨rfl, rfl, rfl⟩
  obtain ⟨hfirst, hseq, hskip⟩ := hfirst
  have full : ∀ r : Res (Hdr × List SPer), r = .ok (hd, ps) → ∃ hd' ps', r = .ok (hd', ps') ∧ deltaRows hd' ps' = (clientRows hd ps).drop hd'.skipSegs ∧ hd'.perCount = ps'.length ∧
      (∀ p ∈ ps', ∀ g ∈ p.segs, ∃ k ∈ H, k.idx = g.idx ∧ k.time = g.time ∧ (g.dur = k.dur ∨ g.dur = 0 ∧ g.idx = max ∧ pendingOn s.next trk max = true)) ∧
      (0 < hd'.skipSegs → hd'.endList = false ∧ deltaRows hd' ps' ≠ [] ∧
        boundary pct t.man.target s.scale ≤ ((ps'.flatMap SPer.segs).map (·.dur)).sum) ∧
      hd'.avail = hd.avail ∧ hd'.seq = hd.seq ∧ hd'.target = hd.target ∧ hd'.endList = hd.endList ∧ hd'.lastMod = hd.lastMod := by
    intro r er
    have h0 : hd.skipSegs = 0 := by rw [← g1]; exact hskip
    refine ⟨hd, ps, er, ?_, e3, e5, fun hp => by omega, rfl, rfl, rfl, rfl, rfl⟩
    unfold deltaRows clientRows
    rw [h0]; rfl
  refine ⟨hd, ps, ?_⟩
  suffices hs : ∃ hd' ps', serveSkip s t tr sd trk max pct = .ok (hd', ps') ∧ deltaRows hd' ps' = (clientRows hd ps).drop hd'.skipSegs ∧ hd'.perCount = ps'.length ∧
      (∀ p ∈ ps', ∀ g ∈ p.segs, ∃ k ∈ H, k.idx = g.idx ∧ k.time = g.time ∧ (g.dur = k.dur ∨ g.dur = 0 ∧ g.idx = max ∧ pendingOn s.next trk max = true)) ∧
      (0 < hd'.skipSegs → hd'.endList = false ∧ deltaRows hd' ps' ≠ [] ∧
        boundary pct t.man.target s.scale ≤ ((ps'.flatMap SPer.segs).map (·.dur)).sum) ∧
      hd'.avail = hd.avail ∧ hd'.seq = hd.seq ∧ hd'.target = hd.target ∧ hd'.endList = hd.endList ∧ hd'.lastMod = hd.lastMod by
    obtain ⟨hd', ps', q⟩ := hs
    exact ⟨hd', ps', hserve, q⟩
  unfold serveSkip
  rw [f1]
  simp only [Res.bind_ok]
  split
  · exact full _ hserve
  · rename_i hend
    obtain ⟨r, r1, r2⟩ := skip_spec h ht hc htr hsc trk max pct hm hh hfirst
    rw [r1]
    simp only [Res.bind_ok]
    cases r with
    | none => exact full _ hserve
    | some x =>
      obtain ⟨o, after, h'⟩ := x
      obtain ⟨M, p, x, k⟩ := r2 o after h' rfl
      obtain ⟨sg1, sg2⟩ := shown_good i1
      have hsh : shown t.periods t.man = t.man.first :: chain t.periods t.man.next := by unfold shown; rw [if_neg (by omega)]
      rw [← hsh] at f2
      have hgood : ∀ r ∈ { o with dur := x } :: after, Good s.segs r := by
        intro r hr
        rcases List.mem_cons.1 hr with e | hr
        · rw [e]; exact k.good
        · exact sg1 r (by rw [k.shown]; simp [hr])
      have hsort : ({ o with dur := x } :: after).Pairwise (fun p r => p.key + p.count ≤ r.key) := by
        rw [k.shown] at sg2
        obtain ⟨q1, q2⟩ := List.pairwise_cons.1 (List.pairwise_append.1 sg2).2.1
        refine List.pairwise_cons.2 ⟨fun r hr => ?_, q2⟩
        have := q1 r hr
        have := k.hi
        omega
      obtain ⟨ps', w1, w2, w3, w4⟩ := writePers_spec h.inv s.next trk max h.top _ h'.firstIdx hgood hsort
      have hdur := writePers_dur h.inv s.next trk max h.top hm _ hgood hsort w1
      have hlenp := k.good
      rw [writePers_nodur] at w1
      dsimp only
      rw [w1]
      obtain ⟨pw, v1, v2, _, _⟩ := writePers_spec h.inv s.next trk max h.top (shown t.periods t.man) t.man.firstIdx sg1 sg2
      rw [f2] at v1
      injection v1 with v1
      obtain ⟨z1, z2, z3, z4, z5⟩ := k.rest
      have hrows : deltaRows { h' with perCount := ps'.length } ps' = (clientRows hd ps).drop h'.skipSegs := by
        unfold deltaRows clientRows
        rw [← numbered_drop]
        dsimp only
        have a1 : hd.seq = h'.seq := by rw [z2, ← g1]
        have a2 : hd.firstIdx = t.man.firstIdx := by rw [← g1]; exact hfirst
        rw [← a1, a2, w2, k.first, hfirst, ← g2, v1, v2, k.shown]
        congr 1
        rw [← filter_drop _ _ (rows_closed (by rw [← k.shown]; exact sg2)), k.segs]
        rw [rowsFrom_skip t.man.firstIdx M after k.lo k.hi]
      refine ⟨_, _, rfl, hrows, rfl, ?_, fun hp => ⟨?_, ?_, ?_⟩, ?_, ?_, ?_, ?_, ?_⟩
      · intro sp hsp g hg
        obtain ⟨j, j1, j2⟩ := w4 sp hsp g hg
        obtain ⟨pre, l1, _⟩ := h.log
        refine ⟨j, by rw [l1]; simp [j1], ?_⟩
        unfold mask at j2
        split at j2
        · rename_i hmk; rw [j2]; exact ⟨rfl, rfl, .inr ⟨rfl, hmk.1, hmk.2⟩⟩
        · rw [j2]; exact ⟨rfl, rfl, .inl rfl⟩
      · dsimp only; rw [z4]; simpa using hend
      · unfold deltaRows
        dsimp only
        rw [w2]
        intro e
        have hcnt := Good.pos k.good
        have hmem : (o.key, h'.firstIdx) ∈ (rowsFrom h'.firstIdx ({ o with dur := x } :: after)).filter (fun r => r.1 ≤ max) := by
          refine List.mem_filter.2 ⟨?_, by simpa using k.le⟩
          rw [rowsFrom]
          refine List.mem_append_left _ (List.mem_map.2 ⟨o.key, List.mem_range'_1.2 ⟨Nat.le_refl _, by dsimp only at hcnt ⊢; omega⟩, rfl⟩)
        obtain ⟨y, ys, hy⟩ := List.exists_cons_of_ne_nil (List.ne_nil_of_mem hmem)
        rw [hy] at e
        obtain ⟨y1, y2⟩ := y
        rw [numbered] at e
        cases e
      · rw [← showDur_eq]
        exact Nat.le_trans k.dur hdur
      · rw [← g1]; exact z1
      · rw [← g1]; exact z2
      · rw [← g1]; exact z3
      · rw [← g1]; exact z4
      · rw [← g1]; exact z5

end Verif.Timeline
