import Verif.M3u8Head

/-! # Media playlists: segments and parts are read as written -/

namespace Verif.M3u8

open Verif.Sub (str padded digits)
open Verif.M3u8Spec
open Verif.PName (Bytes Name dec write)
open Verif.SegmentInfo (PIter pinit mget Its Sorted valAt noBitrate)

/-! ## Times -/

theorem ms_eq {c : Chan} {milli : Nat} (h : c.timescale = 1000 * milli) (t : Nat) : ms c t = t / milli := by
  unfold ms
  rw [h, Nat.mul_comm t, Nat.mul_div_mul_left _ _ (by decide)]

theorem step_le {milli : Nat} (h : 0 < milli) (t x : Nat) : (t + x) / milli - t / milli ≤ x := by
  have h1 : (t + x) / milli ≤ t / milli + x := by
    rw [← Nat.add_mul_div_left t x h]
    exact Nat.div_le_div_right (Nat.add_le_add_left (Nat.le_mul_of_pos_left x h) t)
  omega

/-! ## Parts -/

/-- Durations of parts: at most one flag, and a hint only at the end. -/
structure DursOk (ds : List Nat) : Prop where
  flags : ∀ d ∈ ds, d ≠ 2 ^ 32 - 1 → d.testBit 31 = false ∨ d.testBit 30 = false
  last : ∀ d ∈ ds.dropLast, d ≠ 2 ^ 32 - 1

theorem DursOk.tail {d : Nat} {ds : List Nat} (h : DursOk (d :: ds)) : DursOk ds := by
  refine ⟨fun x hx => h.flags x (by simp [hx]), fun x hx => ?_⟩
  cases ds with
  | nil => simp at hx
  | cons e ds => exact h.last x (by simp [List.dropLast, hx])

theorem run_parts (b : Before) (c : Chan) (f : Conf) {milli : Nat} (hm : 0 < milli) (hc : c.timescale = 1000 * milli) (idx : Nat) :
    ∀ (ds : List Nat) (t p : Nat) (s : St), DursOk ds →
    run b s (partsLoop c f.cont.ext milli idx t (t / milli) p ds) = some { s with
      parts := s.parts ++ partList c f idx t p ds,
      hint := (if ds.getLast? = some (2 ^ 32 - 1) then some (write c.id c.types (.part f.cont.ext idx (p + ds.length - 1))) else none).or s.hint }
  | [], t, p, s, _ => by simp [partsLoop, partList, run]
  | d :: ds, t, p, s, h => by
    rw [partsLoop, partList]
    by_cases hd : d = hint
    · have hn : ds = [] := by
        cases ds with
        | nil => rfl
        | cons e ds => exact absurd hd (h.last d (by simp [List.dropLast]))
      subst hn
      rw [if_pos hd, if_pos (show d = 2 ^ 32 - 1 from hd), run, line_hint b s c f.cont idx p]
      have hg : [d].getLast? = some (2 ^ 32 - 1) := by simp [hd, hint]
      rw [if_pos hg]
      simp [partsLoop, partList, run]
    · rw [if_neg hd, if_neg (show ¬ d = 2 ^ 32 - 1 from hd)]
      have hx : (t + d % 2 ^ 30) / milli - t / milli < 2 ^ 32 := by
        have := step_le hm t (d % 2 ^ 30)
        have := Nat.mod_lt d (show 0 < 2 ^ 30 by decide)
        omega
      dsimp only
      rw [run, Nat.mod_eq_of_lt hx, line_part b s c f.cont idx p d _ (by omega) (h.flags d (by simp) hd), Option.bind_some,
        run_parts b c f hm hc idx ds _ (p + 1) _ h.tail]
      have hg : (d :: ds).getLast? = some (2 ^ 32 - 1) ↔ ds.getLast? = some (2 ^ 32 - 1) := by
        cases ds with
        | nil => simp; exact hd
        | cons e ds => simp
      rw [ms_eq hc, ms_eq hc]
      by_cases hl : ds.getLast? = some (2 ^ 32 - 1)
      · rw [if_pos hl, if_pos (hg.2 hl), List.length_cons, show p + (ds.length + 1) - 1 = p + 1 + ds.length - 1 by omega]
        simp
      · rw [if_neg hl, if_neg (fun e => hl (hg.1 e))]
        simp

/-- The parts that may be written. -/
def source (c : Chan) : List Parts := if c.segInfos.length = 1 then c.parts else []

structure PartsOk (c : Chan) : Prop where
  sorted : c.parts.Pairwise fun a b => a.idx < b.idx
  durs : ∀ p ∈ c.parts, DursOk p.durs

/-- The parts from the segment `i`. -/
def Q (c : Chan) (ps : List Parts) (i : Nat) : Prop := ∃ a, source c = a ++ ps ∧ (∀ p ∈ a, p.idx < i) ∧ ∀ p ∈ ps, i ≤ p.idx

theorem source_sorted {c : Chan} (h : PartsOk c) : (source c).Pairwise fun a b => a.idx < b.idx := by
  unfold source; split
  · exact h.sorted
  · exact .nil

theorem source_durs {c : Chan} (h : PartsOk c) : ∀ p ∈ source c, DursOk p.durs := by
  unfold source; split
  · exact h.durs
  · simp

theorem partsAt_eq (c : Chan) (i : Nat) : partsAt c i = (((source c).find? fun p => p.idx = i).map (·.durs)).getD [] := by
  unfold partsAt source
  split <;> simp

theorem takeWhile_imp {q : Parts → Bool} {p : Parts} : ∀ (ps : List Parts), p ∈ ps.takeWhile q → q p = true
  | [], h => by simp at h
  | x :: ps, h => by
    rw [List.takeWhile_cons] at h
    split at h
    · rename_i hx
      rcases List.mem_cons.1 h with rfl | h
      · exact hx
      · exact takeWhile_imp ps h
    · cases h

theorem Q.start {c : Chan} (h : PartsOk c) : ∀ (ps : List Parts) (k i : Nat), Q c ps k → k ≤ i → Q c (ps.dropWhile (·.idx < i)) i := by
  intro ps k i hq hi
  obtain ⟨a, e, h1, h2⟩ := hq
  have hs := source_sorted h
  rw [e] at hs
  have hs2 := (List.pairwise_append.1 hs).2.1
  refine ⟨a ++ ps.takeWhile (·.idx < i), by rw [List.append_assoc, List.takeWhile_append_dropWhile, e], ?_, ?_⟩
  · intro p hp
    rcases List.mem_append.1 hp with hp | hp
    · have := h1 p hp; omega
    · have := takeWhile_imp ps hp
      simpa using this
  · clear e h1 h2 hs
    induction ps with
    | nil => simp
    | cons q ps ih =>
      rw [List.dropWhile_cons]
      split
      · exact ih (List.pairwise_cons.1 hs2).2
      · rename_i hq
        simp at hq
        intro p hp
        rcases List.mem_cons.1 hp with rfl | hp
        · exact hq
        · have := (List.pairwise_cons.1 hs2).1 p hp; omega

theorem parts_of (b : Before) (c : Chan) (f : Conf) {milli : Nat} (hm : 0 < milli) (hc : c.timescale = 1000 * milli) (hp : PartsOk c) (s : S) (r : St)
    (hq : Q c s.parts s.seg) :
    run b r (partsOf c f.cont.ext milli s).1 = some { r with
      parts := r.parts ++ partList c f s.seg s.time 0 (partsAt c s.seg), hint := (hintOf c f s.seg).or r.hint } ∧
    Q c (partsOf c f.cont.ext milli s).2 (s.seg + 1) := by
  obtain ⟨a, e, h1, h2⟩ := hq
  have hs := source_sorted hp
  have hd := source_durs hp
  have ha : a.find? (fun p => p.idx = s.seg) = none := by
    rw [List.find?_eq_none]
    intro p hp
    have := h1 p hp
    simp; omega
  unfold partsOf
  cases hps : s.parts with
  | nil =>
    rw [hps] at e
    have hz : partsAt c s.seg = [] := by rw [partsAt_eq, e, List.find?_append, ha]; rfl
    refine ⟨by simp [hz, hintOf, partList, run], a, e, fun p hp => by have := h1 p hp; omega, by simp⟩
  | cons q ps =>
    rw [hps] at e h2
    rw [e] at hs hd
    have hs2 := List.pairwise_cons.1 (List.pairwise_append.1 hs).2.1
    have hq1 := h2 q (by simp)
    dsimp only
    by_cases hi : s.seg = q.idx
    · have hz : partsAt c s.seg = q.durs := by rw [partsAt_eq, e, List.find?_append, ha]; simp [hi]
      rw [if_pos hi]
      constructor
      · dsimp only
        unfold partsWrite
        rw [← hi, run_parts b c f hm hc s.seg q.durs s.time 0 r (hd q (by simp)), hz, hintOf, hz, Nat.zero_add]
      · refine ⟨a ++ [q], by rw [e]; simp, ?_, ?_⟩
        · intro p hp
          rcases List.mem_append.1 hp with hp | hp
          · have := h1 p hp; omega
          · simp at hp; subst hp; omega
        · intro p hp
          have := hs2.1 p hp; omega
    · have hz : partsAt c s.seg = [] := by
        rw [partsAt_eq, e, List.find?_append, ha, List.find?_eq_none.2]
        · rfl
        · intro p hp
          rcases List.mem_cons.1 hp with rfl | hp
          · simp; omega
          · have := hs2.1 p hp; simp; omega
      rw [if_neg hi]
      refine ⟨by simp [hz, hintOf, partList, run], a, e, fun p hp => by have := h1 p hp; omega, fun p hp => ?_⟩
      rcases List.mem_cons.1 hp with rfl | hp
      · omega
      · have := hs2.1 p hp; omega

/-! ## One segment -/

/-- What the client knows after a segment. -/
def rstep (c : Chan) (f : Conf) (per : Nat) (r : St) (i t x : Nat) : St :=
  let dur := ms c (t + x) - ms c t
  let b := rateOf c f per i dur
  { r with
    segs := r.segs ++ [{ uri := write c.id c.types (.seg f.cont.ext i), ms := dur, msn := r.head.seq + r.head.skip + r.segs.length, disc := r.disc,
                         map := r.map, date := r.date, gap := decide (b = 0), rate := rateNext b r.rate,
                         parts := partList c f i t 0 (partsAt c i) }],
    rate := rateNext b r.rate, date := none, hint := (hintOf c f i).or r.hint }

structure InfosOk (c : Chan) : Prop where
  sorted : ∀ es ∈ c.segInfos, Sorted es

structure Inv (c : Chan) (milli : Nat) (r : St) (s : S) : Prop where
  dur : r.dur = none
  gap : r.gap = false
  parts : r.parts = []
  start : s.start = s.time / milli
  last : s.last ≠ 0 → r.rate = some s.last
  q : Q c s.parts s.seg
  its : Its c.segInfos s.its s.seg

theorem rate_tag (b : Before) (r : St) (last v : Nat) (hv : v < 2 ^ 32) (hl : last ≠ 0 → r.rate = some last) (hg : r.gap = false) :
    run b r (rateTag last v).1 = some { r with gap := decide (v = 0), rate := rateNext v r.rate } ∧
    ((rateTag last v).2 ≠ 0 → rateNext v r.rate = some (rateTag last v).2) := by
  unfold rateTag rateNext
  by_cases h0 : v = 0
  · subst h0
    simp only [if_true, run, line_gap, Option.bind_some]
    exact ⟨by simp, hl⟩
  · have hr : ({ r with gap := false } : St) = r := by rw [← hg]
    rw [if_neg h0]
    unfold kbps
    by_cases h2 : v < 2000
    · rw [if_pos h2, if_neg (by intro h; apply h.1; split <;> omega)]
      simp only [h0, decide_false, run]
      exact ⟨by rw [← hg], hl⟩
    · rw [if_neg h2, if_pos (show v > 1000 by omega)]
      by_cases h3 : v / 1000 = last
      · rw [if_neg (fun h => h.2 h3)]
        simp only [h0, decide_false, run]
        have := hl (by omega)
        exact ⟨by rw [← hg, h3, ← this], fun _ => by rw [h3]⟩
      · rw [if_pos ⟨by omega, h3⟩]
        simp only [h0, decide_false, run]
        rw [line_rate b r (by omega)]
        exact ⟨by cases r; simp only at hg; subst hg; rfl, fun _ => trivial⟩

theorem seg_step (b : Before) (c : Chan) (f : Conf) {milli : Nat} (hm : 0 < milli) (hc : c.timescale = 1000 * milli) (hp : PartsOk c) (hi : InfosOk c)
    (per : Nat) (he : (f.est per).length = c.segInfos.length) (s : S) (r : St) (h : Inv c milli r s) (x : Nat) (hx : x < 2 ^ 32) :
    ∃ ls, (segStep c f.cont.ext milli (f.est per) x s).out = s.out ++ ls ∧ run b r ls = some (rstep c f per r s.seg s.time x) ∧
      Inv c milli (rstep c f per r s.seg s.time x) (segStep c f.cont.ext milli (f.est per) x s) := by
  have hst : ((s.time + x) / milli - s.start) % 2 ^ 32 = ms c (s.time + x) - ms c s.time := by
    rw [h.start, ms_eq hc, ms_eq hc]
    have := step_le hm s.time x
    exact Nat.mod_eq_of_lt (by omega)
  have hd : (ms c (s.time + x) - ms c s.time) / 1000 < 2 ^ 32 := by
    rw [ms_eq hc, ms_eq hc]
    have := step_le hm s.time x
    omega
  have hr : (mget s.seg s.its ((f.est per).map fun g b => g b (ms c (s.time + x) - ms c s.time)) 0).1 =
      rateOf c f per s.seg (ms c (s.time + x) - ms c s.time) := by
    rw [SegmentInfo.mget_val s.seg c.segInfos s.its _ 0 s.seg hi.sorted h.its (Nat.le_refl _) (by simpa using he) (by decide), Nat.zero_add]
    rfl
  have ht := SegmentInfo.mget_its s.seg c.segInfos s.its ((f.est per).map fun g b => g b (ms c (s.time + x) - ms c s.time)) 0 s.seg hi.sorted h.its (Nat.le_refl _)
  have hv : rateOf c f per s.seg (ms c (s.time + x) - ms c s.time) < 2 ^ 32 := by
    unfold rateOf SegmentInfo.total
    split
    · decide
    · exact Nat.mod_lt _ (by decide)
  obtain ⟨p1, p2⟩ := parts_of b c f hm hc hp s r h.q
  unfold segStep
  simp only [hst, hr]
  refine ⟨(partsOf c f.cont.ext milli s).1 ++ ([str "#EXTINF:" ++ (secs (ms c (s.time + x) - ms c s.time) ++ [44])] ++
    ((rateTag s.last (rateOf c f per s.seg (ms c (s.time + x) - ms c s.time))).1 ++ [write c.id c.types (.seg f.cont.ext s.seg)])),
    by simp, ?_, ?_⟩
  · rw [run_append, p1, Option.bind_some, run_append, run, line_inf b _ hd, Option.bind_some, run, Option.bind_some, run_append]
    rw [(rate_tag b _ s.last _ hv (by exact h.last) (by exact h.gap)).1, Option.bind_some, run, line_uri]
    simp only [segment, Option.map_some, Option.bind_some, run, rstep, h.parts, h.dur, h.gap, List.nil_append]
  · refine ⟨h.dur, h.gap, h.parts, rfl, ?_, p2, ht.mono (Nat.le_succ _)⟩
    exact (rate_tag b r s.last _ hv h.last h.gap).2

/-! ## The segments of a period -/

def rsteps (c : Chan) (f : Conf) (per : Nat) : St → Nat → Nat → List Nat → St
  | r, _, _, [] => r
  | r, i, t, x :: xs => rsteps c f per (rstep c f per r i t x) (i + 1) (t + x) xs

def steps (c : Chan) (ext : Bytes) (milli : Nat) (ests : List (Nat → Nat → Nat)) : List Nat → S → S
  | [], s => s
  | x :: xs, s => steps c ext milli ests xs (segStep c ext milli ests x s)

theorem steps_append (c : Chan) (ext : Bytes) (milli : Nat) (ests : List (Nat → Nat → Nat)) : ∀ (a b : List Nat) (s : S),
    steps c ext milli ests (a ++ b) s = steps c ext milli ests b (steps c ext milli ests a s)
  | [], _, _ => rfl
  | _ :: a, b, _ => steps_append c ext milli ests a b _

theorem eltLoop_eq (c : Chan) (ext : Bytes) (milli : Nat) (ests : List (Nat → Nat → Nat)) (d : Nat) : ∀ (k : Nat) (s : S),
    eltLoop (segStep c ext milli ests d) k s = steps c ext milli ests (List.replicate k d) s
  | 0, _ => rfl
  | k + 1, s => by rw [eltLoop, List.replicate_succ, steps, eltLoop_eq]

theorem eltsLoop_eq (c : Chan) (ext : Bytes) (milli : Nat) (ests : List (Nat → Nat → Nat)) : ∀ (es : List Elt) (s : S),
    eltsLoop c ext milli ests es s = steps c ext milli ests (es.flatMap fun e => List.replicate e.count e.dur) s
  | [], _ => rfl
  | e :: es, s => by rw [eltsLoop, eltsLoop_eq, eltLoop_eq, List.flatMap_cons, steps_append]

theorem steps_run (b : Before) (c : Chan) (f : Conf) {milli : Nat} (hm : 0 < milli) (hc : c.timescale = 1000 * milli) (hp : PartsOk c) (hi : InfosOk c)
    (per : Nat) (he : (f.est per).length = c.segInfos.length) : ∀ (xs : List Nat) (s : S) (r : St), Inv c milli r s → (∀ x ∈ xs, x < 2 ^ 32) →
    ∃ ls, (steps c f.cont.ext milli (f.est per) xs s).out = s.out ++ ls ∧ run b r ls = some (rsteps c f per r s.seg s.time xs) ∧
      Inv c milli (rsteps c f per r s.seg s.time xs) (steps c f.cont.ext milli (f.est per) xs s) ∧
      (steps c f.cont.ext milli (f.est per) xs s).seg = s.seg + xs.length ∧ (steps c f.cont.ext milli (f.est per) xs s).time = s.time + xs.sum
  | [], s, r, h, _ => ⟨[], by simp [steps], rfl, h, rfl, by simp [steps]⟩
  | x :: xs, s, r, h, hx => by
    obtain ⟨l1, a1, a2, a3⟩ := seg_step b c f hm hc hp hi per he s r h x (hx x (by simp))
    obtain ⟨l2, b1, b2, b3, b4, b5⟩ := steps_run b c f hm hc hp hi per he xs _ _ a3 (fun y hy => hx y (by simp [hy]))
    refine ⟨l1 ++ l2, by rw [steps, b1, a1, List.append_assoc], ?_, b3, ?_, ?_⟩
    · rw [run_append, a2, Option.bind_some]; exact b2
    · rw [steps, b4]; show s.seg + 1 + xs.length = _; simp; omega
    · rw [steps, b5]; show s.time + x + xs.sum = _; simp; omega

/-- The last hint. -/
def hints (c : Chan) (f : Conf) (h : Option Bytes) (xs : List Nat) : Option Bytes := (xs.reverse.findSome? (hintOf c f)).or h

theorem hints_cons (c : Chan) (f : Conf) (h : Option Bytes) (x : Nat) (xs : List Nat) : hints c f ((hintOf c f x).or h) xs = hints c f h (x :: xs) := by
  unfold hints
  rw [List.reverse_cons, List.findSome?_append, Option.or_assoc]
  congr 1
  cases hh : hintOf c f x <;> simp [List.findSome?, hh]

theorem hints_append (c : Chan) (f : Conf) (h : Option Bytes) (xs ys : List Nat) : hints c f h (xs ++ ys) = hints c f (hints c f h xs) ys := by
  unfold hints
  rw [List.reverse_append, List.findSome?_append, Option.or_assoc]

theorem rsteps_eq (c : Chan) (f : Conf) (per : Nat) : ∀ (xs : List Nat) (r : St) (i t : Nat),
    rsteps c f per r i t xs = { r with
      segs := r.segs ++ perSegs c f per r.disc r.map r.rate r.date (r.head.seq + r.head.skip + r.segs.length) i t xs,
      rate := rateAfter r.rate (perSegs c f per r.disc r.map r.rate r.date (r.head.seq + r.head.skip + r.segs.length) i t xs),
      date := if xs = [] then r.date else none,
      hint := hints c f r.hint (List.range' i xs.length) }
  | [], r, i, t => by simp [rsteps, perSegs, rateAfter, hints]
  | x :: xs, r, i, t => by
    rw [rsteps, rsteps_eq c f per xs]
    have e : (rstep c f per r i t x).head.seq + (rstep c f per r i t x).head.skip + (rstep c f per r i t x).segs.length =
        r.head.seq + r.head.skip + r.segs.length + 1 := by simp [rstep]; omega
    rw [e, perSegs]
    have h2 : (if xs = [] then (rstep c f per r i t x).date else none) = none := by split <;> rfl
    rw [h2, List.length_cons, List.range'_succ, ← hints_cons]
    simp only [rstep, List.append_assoc, List.cons_append, List.nil_append, reduceCtorEq, if_false]
    congr 1
    unfold rateAfter
    generalize perSegs c f per r.disc r.map _ none (r.head.seq + r.head.skip + r.segs.length + 1) (i + 1) (t + x) xs = l
    cases l with
    | nil => rfl
    | cons a l =>
      have ⟨z, hz⟩ : ∃ z, (a :: l).getLast? = some z := by
        cases h : (a :: l).getLast? with
        | none => simp at h
        | some z => exact ⟨z, rfl⟩
      rw [List.getLast?_cons_cons, hz]

end Verif.M3u8
