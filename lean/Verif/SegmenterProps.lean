import Verif.SegmenterReach

/-!
# Properties of the segmenter (C56 to C61)
-/

namespace Verif.Segmenter

/-! ## C56: every frame goes to at most one segment, in order, and none is lost silently -/

/-- What a frame is, when it arrives. -/
def arrival (id : Nat) (created dts delay : Int) (key : Bool) (data : List UInt8) : In := ⟨id, created, dts + delay, dts, key, data⟩

/-- The frames that were accepted are those that went to segments, were disposed or were discarded, in this order, followed by
the pending frames. The segments of a track have growing indexes, each is the index of a segment of the timeline, and the
segment has the data of its frames. -/
theorem frames_conserved {lo : Nat} {e0 : Int} {f0 : Bool} {B NS : Prop} {ch : Chan} (h : Reach lo e0 f0 B NS ch) {t : Track} (ht : t ∈ ch.ts) :
    (t.media ≠ .subtitle → accepted t.log = gone t.log ++ t.fs.map (·.i)) ∧
    (segIdx t.log).Pairwise (· < ·) ∧
    (∀ j ∈ segIdx t.log, j ∈ ch.out.map (·.index)) ∧
    (∀ j src s, Ev.seg j src s ∈ t.log → src ≠ [] ∧ s.data = (src.map (·.data)).flatten ∧
      s.frames.map (fun o => (o.size, o.key)) = src.map fun i => (i.data.length, i.key)) := by
  have hi := reach_inv h
  have hg := hi.tracks.2 t ht
  refine ⟨hg.cons, hg.order, ?_, ?_⟩
  · intro j hj
    obtain ⟨e, he, hej⟩ := List.mem_filterMap.1 hj
    cases e with
    | seg j' src s =>
      simp only [Ev.index?, Option.some.injEq] at hej
      subst hej
      have := hg.segs j' src s he
      rw [hi.out.idx, List.mem_range'_1]
      have h1 := this.lo
      have h2 := this.hi
      rw [hi.out.next] at h2
      exact ⟨h1, h2⟩
    | _ => simp [Ev.index?] at hej
  · intro j src s hs
    have := hg.segs j src s hs
    exact ⟨this.nonempty, this.data.data, this.data.frames⟩

/-- A frame that arrives is accepted, with its fields, unless its time overflows, there are 16384 pending frames, or it is a
video frame that is not a key frame and nothing is pending. -/
theorem frame_accepted {lo : Nat} {e0 : Int} {f0 : Bool} {B NS : Prop} {ch : Chan} (h : Reach lo e0 f0 B NS ch) {g : Cfg} {n : Nat} {t : Track}
    (ht : ch.ts[n]? = some t) (id : Nat) (created dts delay : Int) (key : Bool) (data : List UInt8) (hd : dts < 2 ^ 63) :
    ∃ ch' t', step g ch (.frame n id created dts delay key data) = .ok ch' ∧ ch'.ts[n]? = some t' ∧
      (∀ m, m ≠ n → ch'.ts[m]? = ch.ts[m]?) ∧
      if dts + delay < 2 ^ 63 - 1 ∧ t.fs.length < 16384 ∧ (t.media = .video → t.fs = [] → key = true) then
        accepted t'.log = accepted t.log ++ [arrival id created dts delay key data] ∧
        t'.fs.map (·.i) = t.fs.map (·.i) ++ [arrival id created dts delay key data]
      else t' = t := by
  have hi := reach_inv h
  obtain ⟨hb, hg⟩ := hi.tracks
  obtain ⟨e1, e2⟩ := split_at ht
  have hlt : n < ch.ts.length := (List.getElem?_eq_some_iff.1 ht).1
  rw [e1] at hb hg
  have hgt := hg t (mem_mid _ _ t)
  have hcount := hgt.inv.count
  have hset : ∀ t' : Track, (ch.ts.set n t')[n]? = some t' := fun t' => by rw [List.getElem?_set_self hlt]
  have hne : ∀ (t' : Track) m, m ≠ n → (ch.ts.set n t')[m]? = ch.ts[m]? := fun t' m hm => List.getElem?_set_ne (Ne.symm hm)
  unfold step onTrack
  simp only [ht]
  unfold addFrame
  by_cases h1 : delay ≥ 0 ∧ dts ≥ invalid - delay
  · rw [if_pos h1, Res.bind_ok]
    refine ⟨_, t, rfl, hset t, hne t, ?_⟩
    rw [if_neg (by unfold invalid at h1; omega)]
  · rw [if_neg h1]
    by_cases h2 : t.frameCount ≥ frameMax
    · rw [if_pos h2, Res.bind_ok]
      refine ⟨_, t, rfl, hset t, hne t, ?_⟩
      rw [if_neg (by unfold frameMax at h2; omega)]
    · rw [if_neg h2]
      by_cases h3 : key = false ∧ t.frameCount = 0 ∧ t.media = .video
      · rw [if_pos h3, Res.bind_ok]
        refine ⟨_, t, rfl, hset t, hne t, ?_⟩
        have h4 : t.fs = [] := by
          rw [hcount] at h3
          exact List.eq_nil_of_length_eq_zero h3.2.1
        rw [if_neg (fun x => by have := x.2.2 h3.2.2 h4; rw [h3.1] at this; cases this)]
      · rw [if_neg h3]
        have hpts : dts + delay < invalid := by unfold invalid at h1 ⊢; omega
        obtain ⟨p1, p2⟩ := pushFrame_ok g hgt.inv ⟨id, created, dts + delay, dts, key, data⟩ hpts (by omega)
          (by
            intro hm hc
            cases hk : key with
            | true => rfl
            | false => exact absurd ⟨hk, hc, hm⟩ h3)
        have hb' := bal_congr hb p2.state
        have hcond : dts + delay < 2 ^ 63 - 1 ∧ t.fs.length < 16384 ∧ (t.media = .video → t.fs = [] → key = true) := by
          refine ⟨by unfold invalid at hpts; exact hpts, by unfold frameMax at h2; omega, ?_⟩
          intro hm hf
          cases hk : key with
          | true => rfl
          | false => exact absurd ⟨hk, by rw [hcount, hf]; rfl, hm⟩ h3
        obtain ⟨t1, ht1⟩ : ∃ t1, pushFrame g t ⟨id, created, dts + delay, dts, key, data⟩ = t1 := ⟨_, rfl⟩
        rw [ht1] at p1 p2 hb' ⊢
        have fin : accepted t1.log = accepted t.log ++ [arrival id created dts delay key data] ∧
            t1.fs.map (·.i) = t.fs.map (·.i) ++ [arrival id created dts delay key data] := by
          refine ⟨?_, p2.ins⟩
          rw [p2.log]
          simp [accepted, Ev.accs, arrival]
        simp only [if_pos hcond]
        split
        · exact ⟨_, _, rfl, hset _, hne _, fin⟩
        · obtain ⟨c2, e, hb2, hc2⟩ := setState_ok hb' (if t1.pending ≥ (ch.c.curReady : Int) then .ready else .pending)
          rw [e, Res.bind_ok]
          exact ⟨_, _, rfl, hset _, hne _, fin⟩

/-- When a publisher connects again, the frames to skip are those before the first frame that is not in a segment, as long as
they are not too many; the pending frames are discarded, the publisher sends them again. -/
theorem resume_next {lo : Nat} {e0 : Int} {f0 : Bool} {B NS : Prop} {ch : Chan} (h : Reach lo e0 f0 B NS ch) {t : Track} (ht : t ∈ ch.ts)
    (hm : t.media ≠ .subtitle) (g : Cfg) (initial : Nat) :
    ∃ c t' skip, startStream g ch.c t initial = .ok (c, t', skip) ∧ t'.fs = [] ∧
      (initial ≤ expected t.log → expected t.log - initial ≤ g.maxSkip → initial + skip = expected t.log) ∧
      (expected t.log ≤ initial ∨ g.maxSkip < expected t.log - initial → skip = 0) ∧
      t'.log = t.log ++ .reset (t.fs.map (·.i)) :: (if expected t.log - initial ≤ g.maxSkip then [] else [.jump initial]) := by
  have hi := reach_inv h
  have hg := hi.tracks.2 t ht
  rw [← hg.nextId hm]
  obtain ⟨xs, ys, e⟩ := List.append_of_mem ht
  have hb := hi.tracks.1
  rw [e] at hb
  unfold startStream
  obtain ⟨c2, t2, e, _, _, _, _, hf, hl, hn, _⟩ := removeAll_ok hb
  rw [e, Res.bind_ok]
  simp only [hn]
  split
  · split
    · refine ⟨_, _, _, rfl, hf, by omega, fun _ => rfl, ?_⟩
      rw [if_neg (by omega)]
      simp [hl]
    · refine ⟨_, _, _, rfl, hf, by omega, by omega, ?_⟩
      rw [if_pos (by omega)]
      exact hl
  · refine ⟨_, _, _, rfl, hf, by omega, fun _ => rfl, ?_⟩
    rw [if_pos (by omega)]
    exact hl

/-! ## C57: the lists stay consistent -/

/-- No event has undefined behaviour: no counter goes below zero, no list is read or removed beyond its end. -/
theorem no_undefined {lo : Nat} {e0 : Int} {f0 : Bool} {B NS : Prop} {ch : Chan} (h : Reach lo e0 f0 B NS ch) {g : Cfg} (hg : CfgOk g) {op : Op}
    (ho : Guard B NS op) : step g ch op ≠ .ub := by
  have := step_sat (reach_inv h) hg ho
  intro e
  rw [e] at this
  exact this

/-- The validators of debug builds have nothing to report. -/
theorem validators_pass {lo : Nat} {e0 : Int} {f0 : Bool} {B NS : Prop} {ch : Chan} (h : Reach lo e0 f0 B NS ch) :
    validateChan ch = true ∧ ∀ t ∈ ch.ts, validate t = true := by
  have hi := reach_inv h
  refine ⟨?_, fun t ht => validate_of_inv (hi.tracks.2 t ht).inv⟩
  obtain ⟨h1, h2, h3⟩ := hi.tracks.1
  unfold validateChan
  rw [h1, h2, h3]
  simp

/-- The segments of a video track, and its pending frames, start with a key frame. -/
theorem video_starts_with_key {lo : Nat} {e0 : Int} {f0 : Bool} {B NS : Prop} {ch : Chan} (h : Reach lo e0 f0 B NS ch) {t : Track} (ht : t ∈ ch.ts)
    (hv : t.media = .video) :
    (∀ j src s, Ev.seg j src s ∈ t.log → ∃ o, s.frames.head? = some o ∧ o.key = true) ∧ ∀ f ∈ t.fs.head?, f.i.key = true := by
  have hg := (reach_inv h).tracks.2 t ht
  refine ⟨?_, ?_⟩
  · intro j src s hs
    have := hg.segs j src s hs
    have h1 := this.key hv
    have h2 := this.data.frames
    cases src with
    | nil => exact absurd rfl this.nonempty
    | cons i src =>
      cases hf : s.frames with
      | nil => rw [hf] at h2; simp at h2
      | cons o os =>
        rw [hf] at h2
        simp only [List.map_cons, List.cons.injEq, Prod.mk.injEq] at h2
        refine ⟨o, rfl, ?_⟩
        rw [h2.1.2]
        exact h1 i rfl
  · intro f hf
    have := hg.inv.head f hf
    unfold anchor at this
    simpa [hv] using this

/-! ## C58: times of a segment -/

/-- The presentation times of the frames are those that arrived, no frame is shown before it is decoded, and the durations add
up to the length of the segment. -/
theorem segment_times {lo : Nat} {e0 : Int} {f0 : Bool} {NS : Prop} {ch : Chan} (h : Reach lo e0 f0 True NS ch) {t : Track} (ht : t ∈ ch.ts)
    {j : Nat} {src : List In} {s : Segment} (hs : Ev.seg j src s ∈ t.log) :
    (Regular src → playTimes s.startDts s.frames = src.map (·.pts)) ∧ (∀ o ∈ s.frames, 0 ≤ o.ptsDelay) ∧
      (s.frames.map (·.duration)).sum = s.endDts - s.startDts ∧ ∀ o ∈ s.frames, 0 ≤ o.duration ∧ o.duration < 2 ^ 32 := by
  have := ((reach_inv h).tracks.2 t ht).segs j src s hs
  exact ⟨(this.times trivial).times, (this.times trivial).delay, this.data.length, this.data.range⟩

theorem regular_take : ∀ (n : Nat) (l : List In), Regular l → Regular (l.take n) := by
  intro n
  induction n with
  | zero => intro l _; simp [Regular]
  | succ n ih =>
    intro l h
    match l with
    | [] => simp [Regular]
    | [i] => simp [Regular]
    | i :: j :: r =>
      have := ih (j :: r) h.2.2
      cases n with
      | zero => simp [Regular]
      | succ n =>
        rw [List.take_succ_cons, List.take_succ_cons] at *
        exact ⟨h.1, h.2.1, this⟩

/-- When the next frame is pending and there is no split before it, the segment ends where the next frame starts: two segments
that are made one after the other have no gap between them. -/
theorem segments_join {m : Media} (hm : m ≠ .subtitle) {fs : List Frame} {n n' shift shift1 shift2 : Nat} {s s' : Segment} {b b' : Bool}
    (h0 : 0 < n) (h1 : 0 < n') (hn : n + n' ≤ fs.length)
    (e : frameCopy m fs shift n = .ok (s, shift1, b)) (e' : frameCopy m (fs.drop n) shift1 n' = .ok (s', shift2, b'))
    (hr : Regular (fs.map (·.i))) (hs : ∀ f ∈ fs.drop 1, f.split = false ∧ f.reset = false)
    (hN : ∀ f ∈ fs, Near f.i) (hS : shift ≤ 2 ^ 30)
    (hd : ∀ f ∈ (fs.drop n).take n', f.i.dts ≤ f.i.pts + shift1) : s'.startDts = s.endDts := by
  have near : ∀ l : List Frame, (∀ f ∈ l, f ∈ fs) → ∀ i ∈ l.map (·.i), Near i := by
    intro l hl i hi
    obtain ⟨f, hf, e⟩ := List.mem_map.1 hi
    rw [← e]; exact hN f (hl f hf)
  obtain ⟨s0, sh0, b0, e0, _, t0, ⟨p, hp, hend⟩, hst⟩ := frameCopy_ok m shift h0 (Nat.le_trans (Nat.le_add_right n n') hn)
  rw [e] at e0
  cases e0
  have n0 := near (fs.take n) (fun f hf => List.mem_of_mem_take hf)
  obtain ⟨hb, _⟩ := t0 n0 hS
  obtain ⟨s1, sh1, b1, e1, _, _, _, hst1⟩ := frameCopy_ok m (fs := fs.drop n) shift1 h1 (by rw [List.length_drop]; omega)
  rw [e'] at e1
  cases e1
  have hst1 := hst1 (near _ (fun f hf => List.mem_of_mem_drop (List.mem_of_mem_take hf))) hb
  obtain ⟨f, rest, hfs⟩ : ∃ f rest, fs = f :: rest := List.exists_cons_of_length_pos (by omega)
  obtain ⟨q, rest', hq⟩ : ∃ q rest', fs.drop n = q :: rest' := List.exists_cons_of_length_pos (by rw [List.length_drop]; omega)
  have hqm : q ∈ fs.drop 1 := by
    have : q ∈ (fs.drop 1).drop (n - 1) := by
      rw [List.drop_drop, show 1 + (n - 1) = n by omega, hq]
      exact List.mem_cons_self
    exact List.mem_of_mem_drop this
  obtain ⟨q1, q2⟩ := hs q hqm
  obtain ⟨a1, a2⟩ := hst1 q rest' hq
  have hreset : (if q.reset = true ∧ shift1 > 0 then 0 else shift1) = shift1 := if_neg (by simp [q2])
  rw [hreset] at a2
  have a2 := a2 (by
    intro i hi
    obtain ⟨f, hf, e⟩ := List.mem_map.1 hi
    rw [← e]; exact hd f hf)
  have hr1 : Regular ((fs.take n).map (·.i)) := by
    rw [List.map_take]
    exact regular_take n _ hr
  have hr2 : Regular ((fs.take n).map (·.i) ++ [q.i]) := by
    have := regular_take (n + 1) _ hr
    rw [← List.map_take, List.take_add_one] at this
    have hq0 : fs[n]? = some q := by
      have := List.getElem?_drop (xs := fs) (i := n) (j := 0)
      rw [hq] at this
      simpa using this.symm
    rw [hq0] at this
    simpa using this
  obtain ⟨_, hpq⟩ := regular_append _ _ hr2
  obtain ⟨g1, g2⟩ := hpq p hp
  have hend := hend f rest hfs hr1
  have hst := (hst n0 hS f rest hfs).1
  have hl : lastDur m (fs.drop n) p (f.i.dts - ((if f.reset = true ∧ shift > 0 then 0 else shift : Nat) : Int)) n = q.i.dts - p.dts := by
    rw [hq]
    unfold lastDur
    cases m with
    | subtitle => exact absurd rfl hm
    | _ =>
      simp only [q1, Bool.false_eq_true, if_false]
      rw [if_neg (by omega)]
  rw [hl] at hend
  omega

/-- The whole claim about the last frame of a segment when the next frame is not known: it lasts as long as the others do on
average. `first` and `last` are the first and the last of the `n` frames. -/
def AverageOk (m : Media) (fs : List Frame) (shift n : Nat) : Prop :=
  ∀ s shift' b first last, frameCopy m fs shift n = .ok (s, shift', b) → fs.head? = some first → (fs.take n).getLast? = some last →
    Regular ((fs.take n).map (·.i)) → (∀ f ∈ (fs.drop n).head?, f.split = true) → (last.i.dts - first.i.dts) / (n - 1 : Nat) < 2 ^ 32 →
    s.endDts - s.startDts = last.i.dts - first.i.dts + (last.i.dts - first.i.dts) / (n - 1 : Nat)

theorem regular_le : ∀ (l : List In) (i j : In), Regular (i :: l) → (i :: l).getLast? = some j → i.dts ≤ j.dts := by
  intro l
  induction l with
  | nil => intro i j _ h; cases h; exact Int.le_refl _
  | cons k l ih =>
    intro i j h hl
    rw [List.getLast?_cons_cons] at hl
    exact Int.le_trans h.1 (ih k j h.2.2 hl)

/-- It is true when decode times are not shifted; otherwise the average includes the shift, see `last_duration_too_long`. -/
theorem last_average_partial {m : Media} (hm : m ≠ .subtitle) {fs : List Frame} {n : Nat} (h1 : 1 < n) (hn : n ≤ fs.length) :
    AverageOk m fs 0 n := by
  intro s shift' b first last e hf hl hr hs hb
  obtain ⟨s0, sh0, b0, e0, _, _, ⟨p, hp, hend⟩, _⟩ := frameCopy_ok m 0 (Nat.lt_trans Nat.zero_lt_one h1) hn
  rw [e] at e0
  cases e0
  obtain ⟨f, rest, rfl⟩ : ∃ f rest, fs = f :: rest := List.exists_cons_of_length_pos (by omega)
  simp only [List.head?_cons, Option.some.injEq] at hf
  subst hf
  rw [List.getLast?_map, hl] at hp
  simp only [Option.map_some, Option.some.injEq] at hp
  subst hp
  have hend := hend f rest rfl hr
  have hz : ((if f.reset = true ∧ (0 : Nat) > 0 then 0 else 0 : Nat) : Int) = 0 := by simp
  rw [hz, Int.sub_zero] at hend
  have hle : f.i.dts ≤ last.i.dts := by
    obtain ⟨k, rfl⟩ : ∃ k, n = k + 1 := ⟨n - 1, by omega⟩
    refine regular_le ((rest.take k).map (·.i)) f.i last.i ?_ ?_
    · simpa using hr
    · have : ((f :: rest).take (k + 1)).map (·.i) = f.i :: (rest.take k).map (·.i) := by simp
      rw [← this, List.getLast?_map, hl]
      rfl
  rw [hend]
  congr 1
  unfold lastDur
  have hd : (last.i.dts - f.i.dts).tdiv (n - 1 : Nat) = (last.i.dts - f.i.dts) / (n - 1 : Nat) := Int.tdiv_eq_ediv_of_nonneg (by omega)
  have h0 : 0 ≤ (last.i.dts - f.i.dts) / ((n - 1 : Nat) : Int) := Int.ediv_nonneg (by omega) (by omega)
  simp only [if_pos h1, hd]
  generalize (last.i.dts - f.i.dts) / ((n - 1 : Nat) : Int) = x at *
  cases hdr : (f :: rest).drop n with
  | nil =>
    cases m with
    | subtitle => exact absurd rfl hm
    | _ => simp only; rw [if_neg (by omega)]
  | cons q r =>
    have hq : q.split = true := hs q (by rw [hdr]; rfl)
    cases m with
    | subtitle => exact absurd rfl hm
    | _ => simp only [hq, if_true]; rw [if_neg (by omega)]

/-! ## C59: the creation of segments comes to an end -/

/-- The loop of ngx_live_segmenter_create_segments went around `n` times. -/
inductive Passes (g : Cfg) : Nat → Chan → Chan → Prop where
  | zero (ch : Chan) : Passes g 0 ch ch
  | succ {n : Nat} {ch ch1 ch2 : Chan} {env : Env} (he : env.Ok) (e : pass g env ch = .ok (.more ch1)) (h : Passes g n ch1 ch2) :
      Passes g (n + 1) ch ch2

/-- The whole claim: from every state that can be reached, the number of rounds has a bound. -/
def LoopEnds (NS : Prop) : Prop :=
  ∀ (g : Cfg), CfgOk g → ∀ (lo : Nat) (e0 : Int) (f0 : Bool) (ch : Chan), Reach lo e0 f0 True NS ch → ∃ N, ∀ n ch', Passes g n ch ch' → n ≤ N

/-- Without subtitle tracks, every round removes at least one pending frame. With subtitle tracks this is false, see
`loop_hangs`. -/
theorem loop_ends_partial {lo : Nat} {e0 : Int} {f0 : Bool} {B : Prop} {g : Cfg} (hg : CfgOk g) {n : Nat} {ch ch' : Chan} (p : Passes g n ch ch') :
    Reach lo e0 f0 B True ch → n + sz ch'.ts ≤ sz ch.ts := by
  induction p with
  | zero ch => intro _; omega
  | @succ n ch ch1 ch2 env he e _ ih =>
    intro h
    have h1 := pass_sat (reach_inv h) hg he
    rw [e] at h1
    have h2 : sz ch1.ts < sz ch.ts := h1.2 rfl trivial
    have h3 : Reach lo e0 f0 B True ch1 := Reach.step (op := .pass env) h hg he (by simp only [step]; rw [e]; rfl)
    have := ih h3
    omega

theorem loop_ends_no_subtitles_partial : LoopEnds True := by
  intro g hg lo e0 f0 ch h
  refine ⟨sz ch.ts, fun n ch' p => ?_⟩
  have := loop_ends_partial hg p h
  omega

/-! ## C60: subtitles that are still shown -/

/-- A cue is shown from its `dts` to its `pts`. It belongs to a segment that ends at `target` when it starts before that, and it
has to stay for the next segment unless it ends before `target`. -/
def CuesOk (target : Int) (fs : List Frame) : Prop :=
  fs.take (subIndexes target fs).2 = fs.filter (fun f => f.i.dts < target) ∧
    fs.drop (subIndexes target fs).1 = fs.filter (fun f => !(decide (f.i.dts < target) && decide (f.i.pts < target)))

theorem take_countP (p : α → Bool) : ∀ (l : List α), l.Pairwise (fun x y => p y = true → p x = true) →
    l.take (l.countP p) = l.filter p ∧ l.drop (l.countP p) = l.filter (fun x => !p x) := by
  intro l
  induction l with
  | nil => intro _; simp
  | cons x l ih =>
    intro h
    obtain ⟨h1, h2⟩ := List.pairwise_cons.1 h
    cases hp : p x with
    | true =>
      have := ih h2
      rw [List.countP_cons_of_pos hp, List.filter_cons_of_pos hp, List.filter_cons_of_neg (by simp [hp])]
      simp [this]
    | false =>
      have hall : ∀ y ∈ l, p y = false := by
        intro y hy
        cases hq : p y with
        | false => rfl
        | true => rw [h1 y hy hq] at hp; cases hp
      have hc : (x :: l).countP p = 0 := by
        rw [List.countP_eq_zero]
        intro y hy
        rcases List.mem_cons.1 hy with rfl | hy
        · simp [hp]
        · simp [hall y hy]
      rw [hc]
      refine ⟨?_, ?_⟩
      · rw [List.take_zero, List.filter_cons_of_neg (by simp [hp]), Eq.comm, List.filter_eq_nil_iff]
        intro y hy
        simp [hall y hy]
      · rw [List.drop_zero, Eq.comm, List.filter_eq_self]
        intro y hy
        rcases List.mem_cons.1 hy with rfl | hy
        · simp [hp]
        · simp [hall y hy]

theorem subIndexLoop_count (target : Int) : ∀ (fs : List Frame) (prev : Option Int) (rm cp : Nat),
    fs.Pairwise (fun f f' => f.i.dts ≤ f'.i.dts) → (∀ p ∈ prev, ∀ f ∈ fs, p ≤ f.i.dts) →
    subIndexLoop target fs prev rm cp = (rm + fs.countP (fun f => decide (f.i.dts < target) && decide (f.i.pts < target)),
      cp + fs.countP (fun f => f.i.dts < target)) := by
  intro fs
  induction fs with
  | nil => intro prev rm cp _ _; rfl
  | cons f fs ih =>
    intro prev rm cp hs hp
    obtain ⟨h1, h2⟩ := List.pairwise_cons.1 hs
    rw [subIndexLoop]
    by_cases hd : f.i.dts ≥ target
    · rw [if_pos (.inl hd)]
      have e1 : (f :: fs).countP (fun f => decide (f.i.dts < target) && decide (f.i.pts < target)) = 0 := by
        rw [List.countP_eq_zero]
        intro y hy
        rcases List.mem_cons.1 hy with rfl | hy
        · simp; omega
        · have := h1 y hy
          simp; omega
      have e2 : (f :: fs).countP (fun f => decide (f.i.dts < target)) = 0 := by
        rw [List.countP_eq_zero]
        intro y hy
        rcases List.mem_cons.1 hy with rfl | hy
        · simp; omega
        · have := h1 y hy
          simp; omega
      rw [e1, e2]
      rfl
    · have hn : ¬ ∃ p ∈ prev, f.i.dts < p := by
        rintro ⟨p, hp1, hp2⟩
        have := hp p hp1 f List.mem_cons_self
        omega
      rw [if_neg (fun h => h.elim hd hn)]
      rw [ih (some f.i.dts) _ _ h2 (by
        intro p hp y hy
        simp only [Option.mem_def, Option.some.injEq] at hp
        rw [← hp]
        exact h1 y hy)]
      rw [List.countP_cons, List.countP_cons]
      have hd' : f.i.dts < target := by omega
      by_cases hq : f.i.pts < target
      · simp [hd', hq]; omega
      · simp [hd', hq]; omega

/-- When cues end in the order in which they start, a segment has the cues that started before its end, and those that are still
shown stay for the next segment. In general this is false, see `cue_lost`. -/
theorem cues_kept_partial (target : Int) {fs : List Frame} (hs : fs.Pairwise fun f f' => f.i.dts ≤ f'.i.dts ∧ f.i.pts ≤ f'.i.pts) :
    CuesOk target fs := by
  have h1 : fs.Pairwise (fun f f' => f.i.dts ≤ f'.i.dts) := hs.imp fun h => h.1
  unfold CuesOk subIndexes
  rw [subIndexLoop_count target fs none 0 0 h1 (by simp)]
  simp only [Nat.zero_add]
  refine ⟨(take_countP _ fs (h1.imp ?_)).1, (take_countP _ fs (hs.imp ?_)).2⟩
  · intro a b h h'
    simp only [decide_eq_true_eq] at h' ⊢
    omega
  · intro a b h h'
    simp only [Bool.and_eq_true, decide_eq_true_eq] at h' ⊢
    omega

/-- In general, the copied cues are right as long as cues arrive in the order of their start, and the number of cues that are
removed is the number of cues that ended. -/
theorem cues_copied {target : Int} {fs : List Frame} (hs : fs.Pairwise fun f f' => f.i.dts ≤ f'.i.dts) :
    fs.take (subIndexes target fs).2 = fs.filter (fun f => f.i.dts < target) ∧
      (subIndexes target fs).1 = fs.countP (fun f => decide (f.i.dts < target) && decide (f.i.pts < target)) := by
  unfold subIndexes
  rw [subIndexLoop_count target fs none 0 0 hs (by simp)]
  simp only [Nat.zero_add]
  refine ⟨(take_countP _ fs (hs.imp ?_)).1, trivial⟩
  intro a b h h'
  simp only [decide_eq_true_eq] at h' ⊢
  omega

/-! ## C61: the timeline -/

/-- The segments of a channel have consecutive indexes, do not overlap and are not empty; a segment that does not start at the
end of the one before it starts a period, and so does the first segment of a new channel. -/
theorem segments_follow {lo : Nat} {e0 : Int} {f0 : Bool} {B NS : Prop} {ch : Chan} (h : Reach lo e0 f0 B NS ch) :
    Follow e0 ch.out ∧ ch.out.map (·.index) = List.range' lo ch.out.length ∧ ∀ s ∈ ch.out.head?, f0 = true → s.newPeriod = true :=
  ⟨(reach_inv h).out.follow, (reach_inv h).out.idx, (reach_inv h).out.first⟩

end Verif.Segmenter
