import Verif.SegmenterInv

/-!
# The segment that is made of pending frames
-/

namespace Verif.Segmenter

/-- Times of the frames of a segment, as a player computes them: decode times add the durations, a frame is shown after its
delay. -/
def playTimes : Int → List OutFrame → List Int
  | _, [] => []
  | dts, o :: os => (dts + o.ptsDelay) :: playTimes (dts + o.duration) os

/-- Decode times do not go back, and adjacent decode times are at most 2^32 - 1 apart. -/
def Regular : List In → Prop
  | i :: j :: r => i.dts ≤ j.dts ∧ j.dts - i.dts < 2 ^ 32 ∧ Regular (j :: r)
  | _ => True

/-- The distance between presentation and decode times is less than 2^30. -/
def Near (i : In) : Prop := -2 ^ 30 ≤ i.pts - i.dts ∧ i.pts - i.dts < 2 ^ 30

/-- The segment has the data of the frames, their sizes and key flags, and durations that add up to its length. -/
structure SegData (src : List In) (s : Segment) : Prop where
  frames : s.frames.map (fun o : OutFrame => (o.size, o.key)) = src.map fun i => (i.data.length, i.key)
  data : s.data = (src.map (·.data)).flatten
  length : (s.frames.map (·.duration)).sum = s.endDts - s.startDts
  range : ∀ o ∈ s.frames, 0 ≤ o.duration ∧ o.duration < 2 ^ 32

/-- The segment keeps the presentation times of the frames, and no frame is shown before it is decoded. -/
structure SegTimes (src : List In) (s : Segment) : Prop where
  times : Regular src → playTimes s.startDts s.frames = src.map (·.pts)
  delay : ∀ o ∈ s.frames, 0 ≤ o.ptsDelay

theorem setDur_append (d : Int) : ∀ (os : List OutFrame) (o : OutFrame), setDur d (os ++ [o]) = os ++ [{ o with duration := d }] := by
  intro os
  induction os with
  | nil => intro o; rfl
  | cons p os ih =>
    intro o
    cases os with
    | nil => rfl
    | cons q os =>
      rw [show (p :: q :: os) ++ [o] = p :: q :: (os ++ [o]) from rfl, setDur]
      have := ih o
      rw [List.cons_append] at this
      rw [this]
      · rfl
      · simp

theorem playTimes_append : ∀ (os : List OutFrame) (x : Int) (o : OutFrame),
    playTimes x (os ++ [o]) = playTimes x os ++ [x + (os.map (·.duration)).sum + o.ptsDelay] := by
  intro os
  induction os with
  | nil => intro x o; simp [playTimes]
  | cons p os ih =>
    intro x o
    rw [List.cons_append, playTimes, ih, playTimes]
    simp only [List.map_cons, List.sum_cons, List.cons_append]
    rw [Int.add_assoc x p.duration]

theorem regular_append : ∀ (src : List In) (j : In), Regular (src ++ [j]) →
    Regular src ∧ ∀ p ∈ src.getLast?, p.dts ≤ j.dts ∧ j.dts - p.dts < 2 ^ 32 := by
  intro src
  induction src with
  | nil => intro j _; simp [Regular]
  | cons i src ih =>
    intro j h
    cases src with
    | nil =>
      simp only [List.cons_append, List.nil_append, Regular] at h
      refine ⟨by simp [Regular], ?_⟩
      intro p hp
      simp at hp
      subst hp
      exact ⟨h.1, h.2.1⟩
    | cons k src =>
      simp only [List.cons_append, Regular] at h
      obtain ⟨h1, h2⟩ := ih j h.2.2
      rw [List.getLast?_cons_cons]
      exact ⟨⟨h.1, h.2.1, h1⟩, h2⟩

/-- The delay of a frame in the segment, before the segment is shifted. -/
def delayOf (shift : Nat) (i : In) : Int := i32 (i.pts + shift - i.dts)

/-- The state of the copy after the frames `src`. -/
structure CpOk (shift : Nat) (first : In) (src : List In) (s : Cp) : Prop where
  prev : ∃ p, src.getLast? = some p ∧ s.prev = some p ∧ (s.outs.map (·.duration)).sum = p.dts - first.dts + s.endShift
  last : ∃ os o, s.outs = os ++ [o] ∧ o.duration = 0
  outs : s.outs.map (fun o : OutFrame => (o.size, o.key)) = src.map fun i => (i.data.length, i.key)
  delays : s.outs.map (·.ptsDelay) = src.map (delayOf shift)
  data : s.data = (src.map (·.data)).flatten
  range : ∀ o ∈ s.outs, 0 ≤ o.duration ∧ o.duration < 2 ^ 32
  times : Regular src → s.endShift = 0 ∧ ∀ x, playTimes x s.outs = src.map fun i => x - first.dts + i.dts + delayOf shift i
  shiftLe : ∀ i ∈ src, -delayOf shift i ≤ s.dtsShift
  shiftEq : s.dtsShift = 0 ∨ ∃ i ∈ src, (s.dtsShift : Int) = -delayOf shift i

theorem put_first (shift : Nat) (f : Frame) : CpOk shift f.i [f.i] (Cp.put shift {} f) := by
  unfold Cp.put
  refine ⟨⟨f.i, rfl, rfl, by simp⟩, ⟨[], _, rfl, rfl⟩, by simp, by simp [delayOf], by simp, by simp, ?_, ?_, ?_⟩
  · intro _
    refine ⟨rfl, fun x => ?_⟩
    simp [playTimes, delayOf]
  · intro i hi
    simp at hi
    subst hi
    simp only [delayOf]
    split
    · simp; omega
    · simp; omega
  · simp only [delayOf]
    split
    · right
      refine ⟨f.i, by simp, ?_⟩
      simp; omega
    · left; rfl

theorem put_ok (shift : Nat) (first : In) (src : List In) (s : Cp) (f : Frame) (h : CpOk shift first src s) :
    CpOk shift first (src ++ [f.i]) ((s.dur f).put shift f) := by
  obtain ⟨p, hp1, hp2, hp3⟩ := h.prev
  obtain ⟨os, o, ho1, ho2⟩ := h.last
  obtain ⟨d, es, hdur, hd0, hd1, hsum, hreg⟩ : ∃ d es, s.dur f = { s with outs := os ++ [{ o with duration := d }], endShift := es } ∧
      0 ≤ d ∧ d < 2 ^ 32 ∧ d - es = f.i.dts - p.dts - s.endShift ∧ (p.dts ≤ f.i.dts → f.i.dts - p.dts < 2 ^ 32 → es = s.endShift) := by
    unfold Cp.dur
    rw [hp2]
    simp only
    rw [ho1, setDur_append, setDur_append]
    split
    · exact ⟨0, _, rfl, by omega, by omega, by omega, by omega⟩
    · exact ⟨f.i.dts - p.dts, s.endShift, rfl, by omega, by omega, by omega, fun _ _ => rfl⟩
  rw [hdur]
  unfold Cp.put
  have hsum0 : (os.map (·.duration)).sum = p.dts - first.dts + s.endShift := by
    rw [ho1] at hp3
    simp [ho2] at hp3
    exact hp3
  have eouts : (os ++ [({ o with duration := d } : OutFrame)]).map (fun o : OutFrame => (o.size, o.key)) = src.map fun i => (i.data.length, i.key) := by
    rw [← h.outs, ho1]
    simp
  have edel : (os ++ [({ o with duration := d } : OutFrame)]).map (·.ptsDelay) = src.map (delayOf shift) := by
    rw [← h.delays, ho1]
    simp
  refine ⟨⟨f.i, by simp, rfl, ?_⟩, ⟨_, _, rfl, rfl⟩, ?_, ?_, ?_, ?_, ?_, ?_, ?_⟩
  · simp only [List.map_append, List.sum_append, List.map_cons, List.map_nil, List.sum_cons, List.sum_nil, hsum0]
    omega
  · simp only
    rw [List.map_append, eouts, List.map_append]
    rfl
  · simp only
    rw [List.map_append, edel, List.map_append]
    rfl
  · simp only
    rw [h.data]
    simp
  · intro q hq
    simp only at hq
    rcases List.mem_append.1 hq with hq | hq
    · rcases List.mem_append.1 hq with hq | hq
      · exact h.range q (by rw [ho1]; exact List.mem_append_left _ hq)
      · simp at hq
        subst hq
        exact ⟨hd0, hd1⟩
    · simp at hq
      subst hq
      exact ⟨by simp, by simp⟩
  · intro hr
    obtain ⟨hr1, hr2⟩ := regular_append src f.i hr
    obtain ⟨hr3, hr4⟩ := hr2 p hp1
    obtain ⟨h1, h2⟩ := h.times hr1
    have e := hreg hr3 hr4
    refine ⟨by simp only; omega, ?_⟩
    intro x
    simp only
    rw [playTimes_append, List.map_append]
    have := h2 x
    rw [ho1, playTimes_append] at this
    have e1 : playTimes x (os ++ [({ o with duration := d } : OutFrame)]) = src.map fun i => x - first.dts + i.dts + delayOf shift i := by
      rw [playTimes_append]
      exact this
    rw [e1]
    simp only [List.map_append, List.sum_append, List.map_cons, List.map_nil, List.sum_cons, List.sum_nil, hsum0]
    simp only [delayOf, List.append_cancel_left_eq, List.cons.injEq, and_true]
    omega
  · intro i hi
    simp only
    have hold := h.shiftLe
    rcases List.mem_append.1 hi with hi | hi
    · have := hold i hi
      split <;> omega
    · simp at hi
      subst hi
      simp only [delayOf]
      split <;> omega
  · simp only
    split
    · rename_i hneg
      rcases Nat.le_total s.dtsShift (-i32 (f.i.pts + ↑shift - f.i.dts)).toNat with hle | hle
      · right
        refine ⟨f.i, by simp, ?_⟩
        rw [Nat.max_eq_right hle]
        simp only [delayOf]
        omega
      · rw [Nat.max_eq_left hle]
        rcases h.shiftEq with h0 | ⟨i, hi, he⟩
        · exact .inl h0
        · exact .inr ⟨i, List.mem_append_left _ hi, he⟩
    · rcases h.shiftEq with h0 | ⟨i, hi, he⟩
      · exact .inl h0
      · exact .inr ⟨i, List.mem_append_left _ hi, he⟩

theorem copyLoop_ok (shift : Nat) (first : In) : ∀ (n : Nat) (fs : List Frame) (src : List In) (s : Cp), n ≤ fs.length → CpOk shift first src s →
    CpOk shift first (src ++ (fs.take n).map (·.i)) (copyLoop shift n fs s).1 ∧ (copyLoop shift n fs s).2 = fs.drop n := by
  intro n
  induction n with
  | zero => intro fs src s _ h; simpa [copyLoop] using h
  | succ n ih =>
    intro fs src s hn h
    cases fs with
    | nil => simp at hn
    | cons f fs =>
      rw [copyLoop]
      have := ih fs (src ++ [f.i]) _ (by simp at hn; omega) (put_ok shift first src s f h)
      simpa using this

theorem lastDur_range (m : Media) (rest : List Frame) (p : In) (x : Int) (n : Nat) :
    0 ≤ lastDur m rest p x n ∧ lastDur m rest p x n < 2 ^ 32 := by
  unfold lastDur
  simp only
  split <;> omega

theorem i32_id {x : Int} (h : -2 ^ 31 ≤ x) (h' : x < 2 ^ 31) : i32 x = x := by
  unfold i32
  exact Int.bmod_eq_of_le (by omega) (by omega)

/-- The result of the copy. -/
theorem frameCopy_ok (m : Media) {fs : List Frame} {n : Nat} (shift : Nat) (h0 : 0 < n) (hn : n ≤ fs.length) :
    ∃ s shift' b, frameCopy m fs shift n = .ok (s, shift', b) ∧ SegData ((fs.take n).map (·.i)) s ∧
      ((∀ i ∈ (fs.take n).map (·.i), Near i) → shift ≤ 2 ^ 30 → shift' ≤ 2 ^ 30 ∧ SegTimes ((fs.take n).map (·.i)) s) ∧
      (∃ p, ((fs.take n).map (·.i)).getLast? = some p ∧ ∀ f rest, fs = f :: rest → Regular ((fs.take n).map (·.i)) →
        s.endDts - s.startDts = p.dts - f.i.dts + lastDur m (fs.drop n) p (f.i.dts - if f.reset ∧ shift > 0 then 0 else shift) n) ∧
      ((∀ i ∈ (fs.take n).map (·.i), Near i) → shift ≤ 2 ^ 30 → ∀ f rest, fs = f :: rest →
        s.startDts = f.i.dts - shift' ∧
        ((∀ i ∈ (fs.take n).map (·.i), i.dts ≤ i.pts + ((if f.reset ∧ shift > 0 then 0 else shift : Nat) : Int)) →
          shift' = if f.reset ∧ shift > 0 then 0 else shift)) := by
  cases fs with
  | nil => simp at hn; omega
  | cons f fs =>
    obtain ⟨k, rfl⟩ : ∃ k, n = k + 1 := ⟨n - 1, by omega⟩
    rw [frameCopy]
    generalize hsh : (if f.reset = true ∧ shift > 0 then 0 else shift) = sh
    have hshle : shift ≤ 2 ^ 30 → sh ≤ 2 ^ 30 := by
      intro h
      rw [← hsh]
      split <;> omega
    simp only
    have hfirst : copyLoop sh (k + 1) (f :: fs) {} = copyLoop sh k fs (Cp.put sh {} f) := rfl
    rw [hfirst]
    obtain ⟨hc, hrest⟩ := copyLoop_ok sh f.i k fs [f.i] _ (by simp at hn; omega) (put_first sh f)
    have hsrc : [f.i] ++ (fs.take k).map (·.i) = ((f :: fs).take (k + 1)).map (·.i) := by simp
    rw [hsrc] at hc
    rw [hrest]
    generalize hs : (copyLoop sh k fs (Cp.put sh {} f)).1 = s at *
    generalize hsr : ((f :: fs).take (k + 1)).map (·.i) = src at *
    obtain ⟨p, hp1, hp2, hp3⟩ := hc.prev
    obtain ⟨os, o, ho1, ho2⟩ := hc.last
    rw [hp2]
    simp only
    rw [show (f :: fs).drop (k + 1) = fs.drop k from rfl]
    obtain ⟨hd0, hd1⟩ := lastDur_range m (fs.drop k) p (f.i.dts - sh) (k + 1)
    generalize hd : lastDur m (fs.drop k) p (f.i.dts - sh) (k + 1) = d at *
    have hsum0 : (os.map (·.duration)).sum = p.dts - f.i.dts + s.endShift := by
      rw [ho1] at hp3
      simp [ho2] at hp3
      exact hp3
    rw [ho1, setDur_append]
    have hplay : ∀ x, playTimes x (os ++ [({ o with duration := d } : OutFrame)]) = playTimes x s.outs := by
      intro x
      rw [ho1, playTimes_append, playTimes_append]
    have hmap : (os ++ [({ o with duration := d } : OutFrame)]).map (fun o : OutFrame => (o.size, o.key)) = src.map fun i => (i.data.length, i.key) := by
      rw [← hc.outs, ho1]; simp
    have hdel : (os ++ [({ o with duration := d } : OutFrame)]).map (·.ptsDelay) = src.map (delayOf sh) := by
      rw [← hc.delays, ho1]; simp
    have hran : ∀ q ∈ os ++ [({ o with duration := d } : OutFrame)], 0 ≤ q.duration ∧ q.duration < 2 ^ 32 := by
      intro q hq
      rcases List.mem_append.1 hq with hq | hq
      · exact hc.range q (by rw [ho1]; exact List.mem_append_left _ hq)
      · simp at hq
        subst hq
        exact ⟨hd0, hd1⟩
    have hsum : ((os ++ [({ o with duration := d } : OutFrame)]).map (·.duration)).sum = p.dts - f.i.dts + s.endShift + d := by
      simp [hsum0]
    have hreg : Regular src → s.endShift = 0 := fun h => (hc.times h).1
    have hnear : (∀ i ∈ src, Near i) → shift ≤ 2 ^ 30 → ∀ i ∈ src, delayOf sh i = i.pts + sh - i.dts := by
      intro hN hS i hi
      have := hshle hS
      obtain ⟨h1, h2⟩ := hN i hi
      exact i32_id (by omega) (by omega)
    have hmem : ∀ q ∈ os ++ [({ o with duration := d } : OutFrame)], ∃ i ∈ src, q.ptsDelay = delayOf sh i := by
      intro q hq
      have : q.ptsDelay ∈ (os ++ [({ o with duration := d } : OutFrame)]).map (·.ptsDelay) := List.mem_map_of_mem hq
      rw [hdel] at this
      obtain ⟨i, hi, e⟩ := List.mem_map.1 this
      exact ⟨i, hi, e.symm⟩
    by_cases hz : s.dtsShift > 0
    · rw [if_pos hz]
      refine ⟨_, _, _, rfl, ⟨?_, hc.data, ?_, ?_⟩, ?_, ⟨p, hp1, ?_⟩, ?_⟩
      · simp only [shiftDts, List.map_map]
        exact hmap
      · simp only [shiftDts, List.map_map]
        rw [show ((fun o : OutFrame => o.duration) ∘ fun o : OutFrame => { o with ptsDelay := i32 (o.ptsDelay + ↑s.dtsShift) }) =
          fun o => o.duration from rfl, hsum]
        omega
      · intro q hq
        simp only [shiftDts] at hq
        obtain ⟨q', hq', e⟩ := List.mem_map.1 hq
        rw [← e]
        exact hran q' hq'
      · intro hN hS
        have hdl := hnear hN hS
        have hb : sh + s.dtsShift ≤ 2 ^ 30 := by
          rcases hc.shiftEq with h | ⟨i, hi, he⟩
          · omega
          · rw [hdl i hi] at he
            have := (hN i hi).1
            omega
        have hid : ∀ q ∈ os ++ [({ o with duration := d } : OutFrame)], i32 (q.ptsDelay + s.dtsShift) = q.ptsDelay + s.dtsShift ∧ 0 ≤ q.ptsDelay + s.dtsShift := by
          intro q hq
          obtain ⟨i, hi, e⟩ := hmem q hq
          have h1 := hc.shiftLe i hi
          rw [hdl i hi] at h1
          rw [e, hdl i hi]
          have := (hN i hi).2
          exact ⟨i32_id (by omega) (by omega), by omega⟩
        refine ⟨by rw [Nat.mod_eq_of_lt (by omega)]; exact hb, ?_, ?_⟩
        · intro hr
          simp only [shiftDts]
          have hmapid : (os ++ [({ o with duration := d } : OutFrame)]).map (fun o => ({ o with ptsDelay := i32 (o.ptsDelay + ↑s.dtsShift) } : OutFrame)) =
              (os ++ [({ o with duration := d } : OutFrame)]).map (fun o => ({ o with ptsDelay := o.ptsDelay + ↑s.dtsShift } : OutFrame)) := by
            apply List.map_congr_left
            intro q hq
            rw [(hid q hq).1]
          rw [hmapid]
          have hsft : ∀ (l : List OutFrame) (x y : Int), playTimes (x - y) (l.map fun o => { o with ptsDelay := o.ptsDelay + y }) = playTimes x l := by
            intro l
            induction l with
            | nil => intro x y; rfl
            | cons q l ih =>
              intro x y
              simp only [List.map_cons, playTimes]
              rw [show x - y + q.duration = x + q.duration - y by omega, ih]
              congr 1
              omega
          rw [hsft, hplay, (hc.times hr).2]
          apply List.map_congr_left
          intro i hi
          rw [hdl i hi]
          omega
        · intro q hq
          simp only [shiftDts] at hq
          obtain ⟨q', hq', e⟩ := List.mem_map.1 hq
          rw [← e]
          simp only
          rw [(hid q' hq').1]
          exact (hid q' hq').2
      · intro f' rest' he hr
        simp only [List.cons.injEq] at he
        obtain ⟨rfl, _⟩ := he
        rw [hsh, hd]
        simp only [shiftDts]
        have := hreg hr
        omega
      · intro hN hS f' rest' he
        simp only [List.cons.injEq] at he
        obtain ⟨rfl, _⟩ := he
        have hdl := hnear hN hS
        have hb : sh + s.dtsShift ≤ 2 ^ 30 := by
          rcases hc.shiftEq with h | ⟨i, hi, he⟩
          · omega
          · rw [hdl i hi] at he
            have := (hN i hi).1
            omega
        rw [Nat.mod_eq_of_lt (by omega)]
        refine ⟨?_, ?_⟩
        · simp only [shiftDts]
          omega
        · rw [hsh]
          intro hd
          rcases hc.shiftEq with h | ⟨i, hi, he⟩
          · omega
          · rw [hdl i hi] at he
            have := hd i hi
            omega
    · rw [if_neg hz]
      refine ⟨_, _, _, rfl, ⟨hmap, hc.data, ?_, hran⟩, ?_, ⟨p, hp1, ?_⟩, ?_⟩
      · rw [hsum]
        simp only
        omega
      · intro hN hS
        have hdl := hnear hN hS
        refine ⟨hshle hS, ?_, ?_⟩
        · intro hr
          simp only
          rw [hplay, (hc.times hr).2]
          apply List.map_congr_left
          intro i hi
          rw [hdl i hi]
          omega
        · intro q hq
          obtain ⟨i, hi, e⟩ := hmem q hq
          have h1 := hc.shiftLe i hi
          rw [e]
          omega
      · intro f' rest' he hr
        simp only [List.cons.injEq] at he
        obtain ⟨rfl, _⟩ := he
        rw [hsh, hd]
        simp only
        have := hreg hr
        omega
      · intro _ _ f' rest' he
        simp only [List.cons.injEq] at he
        obtain ⟨rfl, _⟩ := he
        exact ⟨rfl, fun _ => hsh.symm⟩

end Verif.Segmenter
