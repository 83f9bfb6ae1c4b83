import Verif.M3u8Fits

/-! # Media playlists: durations, and cases -/

namespace Verif.M3u8

open Verif.Sub (str)
open Verif.M3u8Spec
open Verif.PName (Bytes Name write)

/-! ## C108: the target duration -/

/-- The segments of the channel do not last longer than its target duration. -/
def InTarget (c : Chan) : Prop := ∀ p ∈ c.periods, ∀ d ∈ durs p, d ≤ c.target

/-- The durations of segments that start at `t`, in milliseconds. -/
def msList (c : Chan) : Nat → List Nat → List Nat
  | _, [] => []
  | t, x :: xs => (ms c (t + x) - ms c t) :: msList c (t + x) xs

theorem perSegs_ms (c : Chan) (f : Conf) (per disc : Nat) (map : Option Bytes) : ∀ (xs : List Nat) (r : Option Nat) (d : Option Date) (n i t : Nat),
    (perSegs c f per disc map r d n i t xs).map (·.ms) = msList c t xs
  | [], _, _, _, _, _ => rfl
  | x :: xs, r, d, n, i, t => by
    rw [perSegs, msList, List.map_cons, perSegs_ms c f per disc map xs]

theorem allSegs_ms (c : Chan) (f : Conf) : ∀ (ps : List Period) (r : Option Nat) (disc n : Nat),
    (allSegs c f r disc n ps).map (·.ms) = ps.flatMap fun p => msList c p.time (durs p)
  | [], _, _, _ => rfl
  | p :: ps, r, disc, n => by
    rw [allSegs, List.map_append, perSegs_ms, allSegs_ms c f ps, List.flatMap_cons]

theorem msList_le {c : Chan} (h : 0 < c.timescale) {m : Nat} : ∀ (xs : List Nat) (t : Nat),
    (∀ t x, x ∈ xs → ms c (t + x) - ms c t ≤ m) → ∀ y ∈ msList c t xs, y ≤ m
  | [], _, _, y, hy => by cases hy
  | x :: xs, t, hm, y, hy => by
    rcases List.mem_cons.1 hy with rfl | hy
    · exact hm t x (by simp)
    · exact msList_le h xs _ (fun t x hx => hm t x (by simp [hx])) y hy

/-- A duration in milliseconds is less than one millisecond longer than the exact one. -/
theorem ms_lt {c : Chan} (h : 0 < c.timescale) (t x : Nat) : (ms c (t + x) - ms c t) * c.timescale < x * 1000 + c.timescale := by
  have a1 := Nat.div_add_mod ((t + x) * 1000) c.timescale
  have a2 := Nat.div_add_mod (t * 1000) c.timescale
  have a3 := Nat.mod_lt (t * 1000) h
  obtain ⟨u, hu⟩ : ∃ u, u = ms c (t + x) := ⟨_, rfl⟩
  obtain ⟨v, hv⟩ : ∃ v, v = ms c t := ⟨_, rfl⟩
  rw [← hu, ← hv]
  unfold ms at hu hv
  rw [← hu] at a1
  rw [← hv] at a2
  rw [Nat.sub_mul, Nat.mul_comm u, Nat.mul_comm v]
  omega

theorem nearest_lt {x u : Nat} (h : 0 < u) : x < nearest x u * u + u - u / 2 := by
  unfold nearest
  have a1 := Nat.div_add_mod (x + u / 2) u
  have a2 := Nat.mod_lt (x + u / 2) h
  rw [Nat.mul_comm]
  omega

theorem near_ms {c : Chan} (h : 0 < c.timescale) (h2 : c.timescale % 1000 = 0) {t x T : Nat} (hx : x ≤ T) : ms c (t + x) - ms c t ≤ nearest T c.timescale * 1000 + 500 := by
  have a1 := ms_lt h t x
  have a2 := nearest_lt (x := T) h
  generalize ms c (t + x) - ms c t = y at *
  generalize nearest T c.timescale = n at *
  obtain ⟨m, hm⟩ : ∃ m, c.timescale = 1000 * m := ⟨c.timescale / 1000, by omega⟩
  rw [hm] at a1 a2 h
  apply Classical.byContradiction
  intro hc
  have b1 : n * (1000 * m) + 501 * m ≤ y * m := by
    have : (n * 1000 + 501) * m ≤ y * m := Nat.mul_le_mul_right _ (by omega)
    rw [Nat.add_mul, Nat.mul_assoc] at this
    exact this
  have b2 : y * (1000 * m) = 1000 * (y * m) := Nat.mul_left_comm _ _ _
  rw [b2] at a1
  omega

/-- **C108, in part.** No segment lasts longer than the target duration and a half second. -/
theorem target_near_partial (before : Before) (c : Chan) (f : Conf) (h : Ok c f) (hj : Joins before c f) (ht : InTarget c) {b : Bytes} (hb : build c f = .ok b)
    {pl : Playlist} (hr : M3u8Spec.read before b = some pl) :
    ∃ T, pl.head.target = some T ∧ ∀ s ∈ pl.segs, s.ms ≤ T * 1000 + 500 := by
  rw [playlist_read before c f h hj hb] at hr
  injection hr with hr
  subst hr
  refine ⟨nearest c.target c.timescale, rfl, fun s hs => ?_⟩
  have hm : s.ms ∈ (allSegs c f none c.firstIdx (c.seq + c.skipSegs) c.periods).map (·.ms) := List.mem_map_of_mem hs
  rw [allSegs_ms] at hm
  obtain ⟨p, hp, hm⟩ := List.mem_flatMap.1 hm
  exact msList_le h.scale.2 (durs p) p.time (fun t x hx => near_ms h.scale.2 h.scale.1 (ht p hp x hx)) _ hm

/-- All times are in whole milliseconds. -/
def Whole (c : Chan) : Prop := ∀ p ∈ c.periods, p.time * 1000 % c.timescale = 0 ∧ ∀ d ∈ durs p, d * 1000 % c.timescale = 0

theorem whole_ms {c : Chan} (h : 0 < c.timescale) (h2 : c.timescale % 1000 = 0) {t x T : Nat} (hw : t * 1000 % c.timescale = 0)
    (hsum : (t + x) * 1000 % c.timescale = 0) (hxT : x ≤ T) : (ms c (t + x) - ms c t + 500) / 1000 ≤ nearest T c.timescale := by
  have a1 := Nat.div_add_mod ((t + x) * 1000) c.timescale
  have a2 := Nat.div_add_mod (t * 1000) c.timescale
  have a3 := nearest_lt (x := T) h
  rw [hw] at a2
  rw [hsum] at a1
  obtain ⟨u, hu⟩ : ∃ u, u = ms c (t + x) := ⟨_, rfl⟩
  obtain ⟨v, hv⟩ : ∃ v, v = ms c t := ⟨_, rfl⟩
  obtain ⟨n, hn⟩ : ∃ n, n = nearest T c.timescale := ⟨_, rfl⟩
  rw [← hu, ← hv, ← hn]
  rw [← hn] at a3
  unfold ms at hu hv
  rw [← hu] at a1
  rw [← hv] at a2
  clear hu hv hn
  obtain ⟨m, hm⟩ : ∃ m, c.timescale = 1000 * m := ⟨c.timescale / 1000, by omega⟩
  rw [hm] at a1 a2 a3 h
  have e1 : m * u = t + x := by rw [Nat.mul_assoc] at a1; omega
  have e2 : m * v = t := by rw [Nat.mul_assoc] at a2; omega
  have e3 : m * (u - v) = x := by rw [Nat.mul_sub, e1, e2]; omega
  apply Classical.byContradiction
  intro hc
  have b1 : m * (n * 1000 + 500) ≤ m * (u - v) := Nat.mul_le_mul_left _ (by omega)
  have b2 : m * (n * 1000 + 500) = n * (1000 * m) + 500 * m := by
    rw [Nat.mul_add, Nat.mul_comm m, Nat.mul_assoc, Nat.mul_comm m 500]
  omega

theorem msList_whole {c : Chan} (h : 0 < c.timescale) {T : Nat} (h2 : c.timescale % 1000 = 0) (xs : List Nat) : ∀ (t : Nat), t * 1000 % c.timescale = 0 →
    (∀ d ∈ xs, d * 1000 % c.timescale = 0) → (∀ d ∈ xs, d ≤ T) → ∀ y ∈ msList c t xs, (y + 500) / 1000 ≤ nearest T c.timescale := by
  induction xs with
  | nil => intro t _ _ _ y hy; cases hy
  | cons x xs ih =>
    intro t hw hx hT y hy
    have hx0 := hx x (by simp)
    have hsum : (t + x) * 1000 % c.timescale = 0 := by rw [Nat.add_mul, Nat.add_mod, hw, hx0]; simp
    rcases List.mem_cons.1 hy with hy | hy
    · rw [hy]; exact whole_ms h h2 hw hsum (hT x (by simp))
    · exact ih _ hsum (fun d hd => hx d (by simp [hd])) (fun d hd => hT d (by simp [hd])) y hy

/-- **C108, in part.** With times in whole milliseconds, the duration of a segment, to the nearest second, is not above the target duration. -/
theorem target_partial (before : Before) (c : Chan) (f : Conf) (h : Ok c f) (hj : Joins before c f) (ht : InTarget c) (hw : Whole c) {b : Bytes}
    (hb : build c f = .ok b) {pl : Playlist} (hr : M3u8Spec.read before b = some pl) :
    ∃ T, pl.head.target = some T ∧ ∀ s ∈ pl.segs, (s.ms + 500) / 1000 ≤ T := by
  rw [playlist_read before c f h hj hb] at hr
  injection hr with hr
  subst hr
  refine ⟨nearest c.target c.timescale, rfl, fun s hs => ?_⟩
  have hm : s.ms ∈ (allSegs c f none c.firstIdx (c.seq + c.skipSegs) c.periods).map (·.ms) := List.mem_map_of_mem hs
  rw [allSegs_ms] at hm
  obtain ⟨p, hp, hm⟩ := List.mem_flatMap.1 hm
  exact msList_whole h.scale.2 h.scale.1 (durs p) p.time (hw p hp).1 (hw p hp).2 (ht p hp) _ hm

/-- C108 in full. -/
def TargetFull : Prop := ∀ (before : Before) (c : Chan) (f : Conf), Ok c f → Joins before c f → InTarget c → ∀ b, build c f = .ok b → ∀ pl,
  M3u8Spec.read before b = some pl → ∃ T, pl.head.target = some T ∧ ∀ s ∈ pl.segs, (s.ms + 500) / 1000 ≤ T

/-! ## C109: no drift -/

/-- `l` has the durations, in milliseconds, of the segments with the durations `ds` from `t`: up to the end of each segment, the sum is that of
the clock. -/
def OnClock (c : Chan) (t : Nat) (ds l : List Nat) : Prop :=
  l.length = ds.length ∧ ∀ k ≤ ds.length, ms c t + (l.take k).sum = ms c (t + (ds.take k).sum)

theorem msList_clock (c : Chan) (h : 0 < c.timescale) : ∀ (ds : List Nat) (t : Nat), OnClock c t ds (msList c t ds)
  | [], t => ⟨rfl, fun k _ => by simp [msList]⟩
  | x :: xs, t => by
    obtain ⟨a1, a2⟩ := msList_clock c h xs (t + x)
    refine ⟨by rw [msList, List.length_cons, a1, List.length_cons], fun k hk => ?_⟩
    cases k with
    | zero => simp
    | succ k =>
      rw [msList, List.take_succ_cons, List.sum_cons, List.take_succ_cons, List.sum_cons, ← Nat.add_assoc t]
      have := a2 k (by simp only [List.length_cons] at hk; omega)
      have hle : ms c t ≤ ms c (t + x) := Nat.div_le_div_right (Nat.mul_le_mul_right _ (by omega))
      omega

/-- **C109.** The sum of the durations of the segments of a period is up to each segment the time in whole milliseconds: roundings do not add
up. -/
theorem no_drift (before : Before) (c : Chan) (f : Conf) (h : Ok c f) (hj : Joins before c f) {b : Bytes} (hb : build c f = .ok b)
    {pl : Playlist} (hr : M3u8Spec.read before b = some pl) :
    ∃ ls : List (List Nat), pl.segs.map (·.ms) = ls.flatten ∧ ls.length = c.periods.length ∧
      ∀ (i : Nat) p l, c.periods[i]? = some p → ls[i]? = some l → OnClock c p.time (durs p) l := by
  rw [playlist_read before c f h hj hb] at hr
  injection hr with hr
  subst hr
  refine ⟨c.periods.map fun p => msList c p.time (durs p), ?_, by simp, ?_⟩
  · show (allSegs c f none c.firstIdx (c.seq + c.skipSegs) c.periods).map (·.ms) = _
    rw [allSegs_ms, List.flatMap_def]
  · intro i p l hp hl
    rw [List.getElem?_map, hp] at hl
    injection hl with hl
    subst hl
    exact msList_clock c h.scale.2 _ _

/-! ## Cases -/

def tm1 : Tm := ⟨2023, 11, 14, 22, 13, 20⟩

def conf1 : Conf :=
  { cont := .fmp4, date := true, parts := true, oneType := true, block := true, skipPct := 600, holdPct := 300,
    est := fun _ => [fun b _ => b], gm := fun _ => tm1 }

/-- A period of three segments, and one of a segment and a pending segment with a part and a hint. -/
def chan1 : Chan :=
  { timescale := 90000, partDur := 90000, target := 540000, seq := 8, firstIdx := 3, initIdx := 7, skipPer := 0, skipSegs := 0, lastSkip := 0,
    endList := false, periods := [⟨7, 900045, [⟨2, 540000⟩, ⟨1, 450015⟩]⟩, ⟨12, 3600000, [⟨1, 360000⟩, ⟨1, 0⟩]⟩],
    id := str "v", types := 1, infos := [[5, 12]], segInfos := [[⟨0, 2500000⟩, ⟨8, 0⟩, ⟨9, 2400000⟩]],
    parts := [⟨12, [90000 + 2 ^ 31, 90000, 90000, 90000 + 2 ^ 30]⟩, ⟨13, [90000 + 2 ^ 31, 2 ^ 32 - 1]⟩],
    reps := [(str "w", [⟨0, 13, 1⟩, ⟨1, 12, 2 ^ 32 - 1⟩])], rrSeq := 13, rrPart := 2 ^ 32 - 1 }

theorem tm_ok : TmOk tm1 := ⟨by decide +kernel, by decide, by decide, by decide, by decide, by decide⟩

theorem ok1 : Ok chan1 conf1 where
  scale := by decide
  target := by decide
  partDur := by decide
  seq := by decide
  first := by decide
  skip := by decide
  until_ := by decide +kernel
  hold := by decide +kernel
  pers := by simp [chan1, PersOk, count, invalid]
  maps := by simp [chan1, MapsOk, invalid]
  infos := ⟨by simp [chan1, SegmentInfo.Sorted]⟩
  ests := fun _ => rfl
  parts := ⟨by simp [chan1], by
    intro p hp
    simp only [chan1, List.mem_cons, List.not_mem_nil, or_false] at hp
    rcases hp with rfl | rfl
    · exact ⟨by decide +kernel, by decide +kernel⟩
    · exact ⟨by decide +kernel, by decide +kernel⟩⟩
  dates := fun _ _ _ => tm_ok
  reps := by decide +kernel

theorem joins1 (b : Before) : Joins b chan1 conf1 := fun h => by simp [chan1] at h

example : (build chan1 conf1).map (M3u8Spec.read ⟨0, none⟩) = .ok (some (expected chan1 conf1)) := by decide +kernel

example : (expected chan1 conf1).segs.map (fun s => ([s.ms, s.msn, s.disc, s.parts.length], s.gap, s.rate)) =
    [([6000, 8, 3, 0], false, some 2500), ([6000, 9, 3, 0], true, some 2500), ([5000, 10, 3, 0], false, some 2400), ([4000, 11, 4, 4], false, some 2400)] := by decide +kernel

example : (expected chan1 conf1).hint = some (str "part-14-2-sv-v.m4s") := by decide +kernel

/-- The same with a delta update: the first three segments are skipped. -/
def chan2 : Chan := { chan1 with skipPer := 1, firstIdx := 4, skipSegs := 3, lastSkip := 9, initIdx := 12, periods := [⟨12, 3600000, [⟨1, 360000⟩, ⟨1, 0⟩]⟩] }

theorem ok2 : Ok chan2 conf1 := { ok1 with
  scale := by decide
  first := by decide
  skip := by decide
  pers := by simp [chan2, PersOk, count, invalid]
  infos := ⟨ok1.infos.sorted⟩
  dates := fun _ _ _ => tm_ok
  parts := ⟨ok1.parts.sorted, ok1.parts.durs⟩ }

theorem joins2 : Joins ⟨3, some (str "init-6-sv-v.mp4")⟩ chan2 conf1 := fun _ =>
  ⟨_, _, rfl, by decide, by decide, by decide +kernel, fun h => absurd rfl h⟩

example : (build chan2 conf1).map (M3u8Spec.read ⟨3, some (str "init-6-sv-v.mp4")⟩) = .ok (some (expected chan2 conf1)) := by decide +kernel

theorem fit1 : FitOk chan1 conf1 := ⟨ok1.pers, ok1.maps, by simp [chan1], ok1.infos, ok1.ests, ok1.dates, fun h => by simp [chan1] at h⟩

theorem fit2 : FitOk chan2 conf1 := ⟨ok2.pers, ok2.maps, by simp [chan2, chan1], ok2.infos, ok2.ests, ok2.dates, by
  intro _ p hp
  injection hp with hp
  subst hp
  decide⟩

example : (match build chan1 conf1 with | .ok b => b.length | _ => 0) = 1138 := by decide +kernel
example : bufSize chan1 conf1 ⟨12, 3600000, [⟨1, 360000⟩, ⟨1, 0⟩]⟩ = 1820 := by decide +kernel

example : InTarget chan1 := by unfold InTarget; decide +kernel
example : InTarget chan2 ∧ Whole chan2 := by unfold InTarget Whole; decide +kernel

/-- Timescales that are no multiples of 1000 are not divided exactly: EXTINF is wrong. -/
def chan3 : Chan := { chan1 with timescale := 1500, target := 9000, partDur := 1500, periods := [⟨7, 15000, [⟨2, 9000⟩]⟩], parts := [] }

theorem scale_wrong : ∃ pl, (build chan3 conf1).map (M3u8Spec.read ⟨0, none⟩) = .ok (some pl) ∧ pl.segs.map (·.ms) = [9000, 9000] ∧
    (expected chan3 conf1).segs.map (·.ms) = [6000, 6000] := by
  refine ⟨((M3u8Spec.read ⟨0, none⟩ (unlines (lines chan3 conf1))).getD (expected chan3 conf1)), ?_, ?_, ?_⟩ <;> decide +kernel

/-- A timescale below 1000 is a division by zero. -/
theorem scale_ub : build { chan1 with timescale := 600 } conf1 = .ub := rfl

/-- Two segments of 6.49995… s, of which one is 6.500 s in whole milliseconds. -/
def chan4 : Chan := { chan1 with target := 584996, periods := [⟨7, 900045, [⟨2, 584996⟩]⟩], parts := [] }

theorem ok4 : Ok chan4 conf1 := { ok1 with
  target := by decide
  until_ := by decide +kernel
  pers := by simp [chan4, PersOk, count, invalid]
  infos := ⟨ok1.infos.sorted⟩
  dates := fun _ _ _ => tm_ok
  parts := ⟨by simp [chan4], by simp [chan4]⟩ }

theorem not_target_full : ¬ TargetFull := by
  intro h
  obtain ⟨T, h1, h2⟩ := h ⟨0, none⟩ chan4 conf1 ok4 (fun h => by simp [chan4, chan1] at h) (by unfold InTarget; decide +kernel) _ rfl _
    (playlist_read ⟨0, none⟩ chan4 conf1 ok4 (fun h => by simp [chan4, chan1] at h) rfl)
  have h3 : (expected chan4 conf1).head.target = some 6 := by decide +kernel
  rw [h3] at h1
  injection h1 with h1
  subst h1
  have h4 : ∃ s ∈ (expected chan4 conf1).segs, ¬ (s.ms + 500) / 1000 ≤ 6 := by decide +kernel
  obtain ⟨s, hs, hn⟩ := h4
  exact hn (h2 s hs)

end Verif.M3u8
