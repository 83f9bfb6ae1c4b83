import Verif.SegmenterBreak

/-!
# Cases of the segmenter

Channels on which the hypotheses of the theorems hold, and counterexamples.
-/

namespace Verif.Segmenter

/-- Settings for a timescale of 1000. -/
def cfg : Cfg :=
  { segDur := 4000, minDur := 100, fwdSkip := 1000, fwdJump := 10000, backJump := 0, truncLimit := 5000, addSnap := 500, rmSnap := 500,
    splitSnap := 500, candMargin := 500, alignMargin := 500, maxSpan := 500, ready := 6000, initReady := 8000, maxSkip := 2000 }

theorem cfg_ok : CfgOk cfg := ⟨by decide, by decide⟩

/-- A new channel. -/
def newChan : Chan := { c := { curReady := 8000, lastEnd := 0 }, ts := [], nextIndex := 0 }

/-- The channel after some events. -/
def play : List Op → Chan → Res Chan
  | [], ch => .ok ch
  | op :: ops, ch =>
    match step cfg ch op with
    | .ok ch => play ops ch
    | .err => .err
    | .ub => .ub

/-- A channel, when there is one. -/
def Res.orNew : Res Chan → Chan
  | .ok ch => ch
  | _ => newChan

theorem reach_play {B NS : Prop} : ∀ (ops : List Op) (ch ch' : Chan), (∀ op ∈ ops, Guard B NS op) → Reach 0 0 true B NS ch → play ops ch = .ok ch' →
    Reach 0 0 true B NS ch' := by
  intro ops
  induction ops with
  | nil => intro ch ch' _ h e; cases e; exact h
  | cons op ops ih =>
    intro ch ch' hg h e
    rw [play] at e
    cases hs : step cfg ch op with
    | ok ch1 =>
      rw [hs] at e
      exact ih ch1 ch' (fun o ho => hg o (List.mem_cons_of_mem _ ho)) (.step h cfg_ok (hg op List.mem_cons_self) hs) e
    | err => rw [hs] at e; cases e
    | ub => rw [hs] at e; cases e

theorem reach_new (B NS : Prop) : Reach 0 0 true B NS newChan := .init 8000 (by decide)

theorem env_ok : Env.Ok {} := fun d h => by cases h

/-- A video track with a key frame every 2 s, and an audio track. Video frames 2 and 4 are shown before they are decoded. -/
def twoTracks : List Op :=
  [.addTrack 0 .video false false 1, .addTrack 1 .audio false false 1,
   .frame 0 1 0 0 80 true [1, 2], .frame 0 2 0 1000 (-40) false [3], .frame 0 3 0 2000 80 true [4], .frame 0 4 0 3000 40 false [5],
   .frame 0 5 0 4000 80 true [6], .frame 0 6 0 6000 80 true [7], .frame 0 7 0 8100 80 true [8],
   .frame 1 1 0 0 0 false [10], .frame 1 2 0 1500 0 false [11], .frame 1 3 0 3000 0 false [12], .frame 1 4 0 4500 0 false [13],
   .frame 1 5 0 6000 0 false [14], .frame 1 6 0 7500 0 false [15], .frame 1 7 0 9000 0 false [16]]

def made : Res Chan := play (twoTracks ++ [.pass {}]) newChan

theorem twoTracks_guard : ∀ op ∈ twoTracks ++ [.pass {}], Guard True True op := by
  intro op h
  simp only [twoTracks, List.cons_append, List.nil_append, List.mem_cons, List.not_mem_nil, or_false] at h
  rcases h with rfl | rfl | rfl | rfl | rfl | rfl | rfl | rfl | rfl | rfl | rfl | rfl | rfl | rfl | rfl | rfl | rfl
  all_goals first | exact env_ok | (simp [Guard])

/-- The channel can be reached, and it has made a segment: the video track gave 5 frames and the audio track 4. -/
example : ∃ ch, made = .ok ch ∧ Reach 0 0 true True True ch := by
  have h : made = .ok (Res.orNew made) := by decide +kernel
  exact ⟨_, h, reach_play _ _ _ twoTracks_guard (reach_new True True) h⟩

/-- `frames_conserved`, `segments_follow`: segment 0 from 0 to 4000; the ids of the frames of each track that were accepted,
that are gone, and that are pending. -/
example : (Res.orNew made).out = [⟨0, 0, 4000, 4000, true⟩] ∧
    (Res.orNew made).ts.map (fun t => ((accepted t.log).map (·.id), (gone t.log).map (·.id), t.fs.map (·.i.id), expected t.log)) =
      [([1, 2, 3, 4, 5, 6, 7], [1, 2, 3, 4, 5], [6, 7], 6), ([1, 2, 3, 4, 5, 6, 7], [1, 2, 3, 4], [5, 6, 7], 5)] := by decide +kernel

/-- The segments of a track, the presentation times that a player finds, and those that arrived. -/
def shown (t : Track) : List (Segment × List Int × List Int) :=
  t.log.flatMap fun e => match e with
    | .seg _ src s => [(s, playTimes s.startDts s.frames, src.map (·.pts))]
    | _ => []

/-- `segment_times`: the decode times of the video track are moved back by 40. -/
example : (Res.orNew made).ts.map shown =
    [[(⟨[⟨1000, 120, 2, true⟩, ⟨1000, 0, 1, false⟩, ⟨1000, 120, 1, true⟩, ⟨1000, 80, 1, false⟩, ⟨2000, 120, 1, true⟩], -40, 5960,
        [1, 2, 3, 4, 5, 6]⟩, [80, 960, 2080, 3040, 4080], [80, 960, 2080, 3040, 4080])],
     [(⟨[⟨1500, 0, 1, false⟩, ⟨1500, 0, 1, false⟩, ⟨1500, 0, 1, false⟩, ⟨1500, 0, 1, false⟩], 0, 6000, [10, 11, 12, 13]⟩,
        [0, 1500, 3000, 4500], [0, 1500, 3000, 4500])]] := by decide +kernel

/-- `validators_pass`, and the validators do report a wrong state. -/
example : validateChan (Res.orNew made) = true ∧ (Res.orNew made).ts.all validate = true ∧
    (Res.orNew made).ts.all (fun t => validate { t with pending := t.pending + 1 }) = false ∧
    (Res.orNew made).ts.all (fun t => validate { t with lastKey := t.lastKey + 1 }) = false := by decide +kernel

/-- `resume_next`: the publisher of the video track connects again with frame 2, 4 frames are skipped. -/
example : (match (Res.orNew made).ts with
    | t :: _ => (startStream cfg (Res.orNew made).c t 2).map fun x : Ctx × Track × Nat => (x.2.2, x.2.1.fs.length)
    | [] => .err) = .ok (4, 0) := by decide +kernel

/-- `frame_accepted`: a key frame with a time that overflows is refused. -/
example : (match (Res.orNew made).ts[0]?, step cfg (Res.orNew made) (.frame 0 9 0 (2 ^ 63 - 10) 100 true []) with
    | some t, .ok ch => ch.ts[0]? == some t
    | _, _ => false) = true := by decide +kernel

/-- `loop_ends_partial`: one round, 14 frames before and 5 after it. -/
example : ∃ ch ch', Reach 0 0 true True True ch ∧ Passes cfg 1 ch ch' ∧ sz ch.ts = 14 ∧ sz ch'.ts = 5 := by
  have h1 : play twoTracks newChan = .ok (Res.orNew (play twoTracks newChan)) := by decide +kernel
  have h2 : pass cfg {} (Res.orNew (play twoTracks newChan)) = .ok (.more (Res.orNew made)) := by decide +kernel
  refine ⟨_, _, reach_play _ _ _ (fun op h => twoTracks_guard op (List.mem_append_left _ h)) (reach_new True True) h1,
    .succ env_ok h2 (.zero _), ?_, ?_⟩ <;> decide +kernel

/-! ## C59 is false with subtitles -/

/-- A cue of 5 s, and a video track whose second frame is shown before the first, with new parameters after two frames. -/
def hang : List Op :=
  [.addTrack 0 .video false false 1, .addTrack 1 .subtitle false false 1,
   .frame 1 1 0 100 5000 true [1],
   .frame 0 1 0 0 1080 true [1], .frame 0 2 0 40 1000 false [2], .info 0,
   .frame 0 3 0 2000 0 true [3], .frame 0 4 0 10100 0 true [4], .pass {}]

def hung : Chan := Res.orNew (play hang newChan)

theorem hung_reach : Reach 0 0 true True False hung := by
  have h : play hang newChan = .ok hung := by decide +kernel
  refine reach_play _ _ _ ?_ (reach_new True False) h
  intro op h
  simp only [hang, List.mem_cons, List.not_mem_nil, or_false] at h
  rcases h with rfl | rfl | rfl | rfl | rfl | rfl | rfl | rfl | rfl
  all_goals first | exact env_ok | (simp [Guard])

/-- A round of the loop changes nothing and the loop goes on: the video track gives no frames to the segment, the segment is
disposed, and the subtitle track, which has no cue to remove, counts as a track that was disposed. -/
theorem loop_hangs : pass cfg {} hung = .ok (.more hung) := by decide +kernel

theorem loop_ends_false : ¬ LoopEnds False := by
  intro h
  obtain ⟨N, hN⟩ := h cfg cfg_ok 0 0 true hung hung_reach
  have : ∀ n, Passes cfg n hung hung := by
    intro n
    induction n with
    | zero => exact .zero _
    | succ n ih => exact .succ env_ok loop_hangs ih
  have := hN (N + 1) hung (this (N + 1))
  omega

/-- Without the subtitle track the same frames end the channel. -/
example : play (hang.filter fun op => match op with
    | .addTrack 1 .. | .frame 1 .. => false
    | _ => true) newChan = .err := by decide +kernel

/-! ## C60 is false when a cue ends before the cue before it -/

def cue (id : Nat) (start stop : Int) : Frame := ⟨⟨id, 0, stop, start, true, []⟩, false, false⟩

/-- A cue from 0 to 100, and a cue from 10 to 20: at 50, the first is removed though it is still shown, the second is kept though
it has ended. -/
theorem cue_lost : ¬ CuesOk 50 [cue 1 0 100, cue 2 10 20] ∧
    subIndexes 50 [cue 1 0 100, cue 2 10 20] = (1, 2) ∧ [cue 1 0 100, cue 2 10 20].drop 1 = [cue 2 10 20] := by
  unfold CuesOk
  decide +kernel

/-- `cues_kept_partial`: at 50, the first cue is removed and the second is copied and stays. -/
example : subIndexes 50 [cue 1 0 20, cue 2 10 100, cue 3 60 110] = (1, 2) ∧
    [cue 1 0 20, cue 2 10 100, cue 3 60 110].Pairwise (fun f f' => f.i.dts ≤ f'.i.dts ∧ f.i.pts ≤ f'.i.pts) := by decide +kernel

/-! ## C58: the duration of the last frame -/

/-- Frames every 40 that are shown 160 before they are decoded. -/
def early : List Frame :=
  [⟨⟨1, 0, 840, 1000, true, []⟩, false, false⟩, ⟨⟨2, 0, 880, 1040, false, []⟩, false, false⟩, ⟨⟨3, 0, 920, 1080, false, []⟩, false, false⟩]

/-- With the shift of 160 that such frames need, the estimate for the last frame is 120 and not 40: the start of the segment, from
which the average is taken, includes the shift. -/
theorem last_duration_too_long :
    (frameCopy .video early 160 3).map (fun x => x.1.frames.map (·.duration)) = .ok [40, 40, 120] ∧ ¬ AverageOk .video early 160 3 := by
  refine ⟨by decide +kernel, ?_⟩
  intro h
  have hr : Regular ((early.take 3).map (·.i)) := by simp [early, Regular]
  have e : frameCopy .video early 160 3 = .ok (⟨[⟨40, 0, 0, true⟩, ⟨40, 0, 0, false⟩, ⟨120, 0, 0, false⟩], 840, 1040, []⟩, 160, false) := by
    decide +kernel
  have := h _ _ _ _ _ e rfl rfl hr (by simp [early]) (by decide)
  revert this
  decide

/-- `last_average_partial`: without the shift the estimate is 40. -/
example : (frameCopy .video (early.map fun f => { f with i := { f.i with pts := f.i.dts } }) 0 3).map (fun x => x.1.frames.map (·.duration)) =
    .ok [40, 40, 40] := by decide +kernel

/-- `segments_join`: two segments of two frames. -/
example :
    let fs : List Frame := [⟨⟨1, 0, 960, 1000, true, []⟩, false, false⟩, ⟨⟨2, 0, 1120, 1040, false, []⟩, false, false⟩,
      ⟨⟨3, 0, 1160, 1080, true, []⟩, false, false⟩, ⟨⟨4, 0, 1200, 1120, true, []⟩, false, false⟩]
    (frameCopy .video fs 0 2).map (fun x => (x.1.startDts, x.1.endDts, x.2.1)) = .ok (960, 1040, 40) ∧
      (frameCopy .video (fs.drop 2) 40 2).map (fun x => (x.1.startDts, x.1.endDts, x.2.1)) = .ok (1040, 1160, 40) := by decide +kernel

/-! ## C62, C63: jumps of time -/

theorem reachJ_play : ∀ (ops : List Op) (ch ch' : Chan), (∀ op ∈ ops, Guard True True op) → ReachJ 0 0 true True True 10000 0 ch →
    play ops ch = .ok ch' → ReachJ 0 0 true True True 10000 0 ch' := by
  intro ops
  induction ops with
  | nil => intro ch ch' _ h e; cases e; exact h
  | cons op ops ih =>
    intro ch ch' hg h e
    rw [play] at e
    cases hs : step cfg ch op with
    | ok ch1 =>
      rw [hs] at e
      exact ih ch1 ch' (fun o ho => hg o (List.mem_cons_of_mem _ ho))
        (.step h cfg_ok (by decide) (by decide) (hg op List.mem_cons_self) hs) e
    | err => rw [hs] at e; cases e
    | ub => rw [hs] at e; cases e

/-- Audio frames at some times, with ids from `id`. -/
def sound (n : Nat) : Nat → List Int → List Op
  | _, [] => []
  | id, t :: ts => .frame n id 0 t 0 false [1] :: sound n (id + 1) ts

theorem sound_guard (n : Nat) : ∀ (ts : List Int) (id : Nat), (∀ t ∈ ts, t < 2 ^ 63) → ∀ op ∈ sound n id ts, Guard True True op := by
  intro ts
  induction ts with
  | nil => intro id _ op h; cases h
  | cons t ts ih =>
    intro id ht op h
    rcases List.mem_cons.1 h with rfl | h
    · have := ht t List.mem_cons_self
      simpa [Guard] using this
    · exact ih _ (fun x hx => ht x (List.mem_cons_of_mem _ hx)) op h

/-- Track 0 stops at 4400 and all its frames are in segment 0. It comes back at 4100. -/
def goesBack : List Op :=
  [.addTrack 0 .audio false false 1, .addTrack 1 .audio false false 1] ++ sound 0 1 [0, 1000, 2000, 3000, 4400] ++
  sound 1 1 [0, 1000, 2000, 3000, 4000, 5000, 6000, 7000, 8000, 9000] ++ [.inactive 0, .pass {}] ++
  sound 0 6 [4100, 5000, 6000, 7000, 8000, 10500] ++ sound 1 11 [10500, 11000] ++ [.pass {}]

def wentBack : Chan := Res.orNew (play goesBack newChan)

theorem wentBack_reach : ReachJ 0 0 true True True 10000 0 wentBack := by
  have h : play goesBack newChan = .ok wentBack := by decide +kernel
  refine reachJ_play _ _ _ ?_ (.init 8000 (by decide)) h
  intro op h
  simp only [goesBack, List.mem_append, or_assoc] at h
  rcases h with h | h | h | h | h | h | h
  · simp only [List.mem_cons, List.not_mem_nil, or_false] at h
    rcases h with rfl | rfl <;> simp [Guard]
  · exact sound_guard _ _ _ (by decide) op h
  · exact sound_guard _ _ _ (by decide) op h
  · simp only [List.mem_cons, List.not_mem_nil, or_false] at h
    rcases h with rfl | rfl
    · simp [Guard]
    · exact env_ok
  · exact sound_guard _ _ _ (by decide) op h
  · exact sound_guard _ _ _ (by decide) op h
  · rw [List.mem_singleton.1 h]; exact env_ok

/-- The log of track 0 around its two segments. -/
def around (log : List Ev) : Option (List Ev × Nat × List In × Segment × List Ev × Nat × List In × Segment × List Ev) :=
  match log.span (fun e => e.index?.isNone) with
  | (l1, .seg j src s :: r) =>
    match r.span (fun e => e.index?.isNone) with
    | (l2, .seg j' src' s' :: l3) => some (l1, j, src, s, l2, j', src', s', l3)
    | _ => none
  | _ => none

/-- Segments 0 and 1 have track 0. The time goes back by 300 between them, and no period starts: at 4100 there was no pending frame
to compare with. -/
theorem jump_missed : ¬ JumpsBreak 10000 0 wentBack := by
  intro h
  have hx : (match wentBack.ts with
    | t :: _ => (t.media == .audio) && (match around t.log with
      | some (l1, j, src, s, l2, j', src', s', l3) =>
        (t.log == l1 ++ Ev.seg j src s :: (l2 ++ Ev.seg (j + 1) src' s' :: l3)) && l2.all (fun e => e.index?.isNone) &&
          farNext 10000 0 src src' && (j == 0)
      | none => false)
    | [] => false) = true := by decide +kernel
  cases ht : wentBack.ts with
  | nil => rw [ht] at hx; cases hx
  | cons t ts =>
    rw [ht] at hx
    simp only [Bool.and_eq_true] at hx
    obtain ⟨h0, h1⟩ := hx
    split at h1
    · rename_i l1 j src s l2 j' src' s' l3 _
      simp only [Bool.and_eq_true, beq_iff_eq] at h1 h0
      obtain ⟨⟨⟨h1, h2⟩, h3⟩, h4⟩ := h1
      subst h4
      obtain ⟨o, ho, ho1, ho2⟩ := h t (by rw [ht]; exact List.mem_cons_self) (by rw [h0]; decide) l1 0 src s l2 src' s' l3 h1
        (fun e he => by simpa using List.all_eq_true.1 h2 e he) (.inl h3)
      have : ∀ o ∈ wentBack.out, ¬ (o.index = 0 + 1 ∧ o.newPeriod = true) := by decide +kernel
      exact this o ho ⟨ho1, ho2⟩
    · cases h1

/-- `no_jump_inside`, `disposed_new_period_partial`: the time goes back by 1000 at frame 6, which is disposed. Segment 1 starts a
period. -/
example :
    let ch := Res.orNew (play ([.addTrack 0 .audio false false 1] ++
      sound 0 1 [0, 1000, 2000, 3000, 4000, 3000, 4000, 5000, 6000, 7000, 8000, 9000, 10000, 12000] ++ [.pass {}, .pass {}]) newChan)
    ch.out.map (fun o => (o.index, o.newPeriod)) = [(0, true), (1, true)] ∧
      ch.ts.map (fun t => ((hist 10000 0 t.log).breaks, t.log.filterMap fun e => match e with
        | .seg j src _ => some (j, src.map (·.id))
        | .drop fs => some (100, fs.map (·.id))
        | _ => none)) = [([1], [(0, [1, 2, 3, 4, 5]), (100, [6]), (1, [7, 8, 9, 10, 11])])] := by decide +kernel

/-- `jump_new_period_partial`: the time goes forward by 16000 at frame 6, which is pending when segment 0 is made. -/
example :
    let ch := Res.orNew (play ([.addTrack 0 .audio false false 1] ++
      sound 0 1 [0, 1000, 2000, 3000, 4000, 20000, 21000, 22000, 23000, 24000, 25000, 26000, 27000, 28000] ++ [.pass {}, .pass {}]) newChan)
    ch.out.map (fun o => (o.index, o.newPeriod)) = [(0, true), (1, true)] ∧
      ch.ts.map (fun t => ((hist 10000 0 t.log).breaks, t.log.filterMap fun e => match e with
        | .seg j src _ => some (j, src.map (·.id))
        | _ => none)) = [([1], [(0, [1, 2, 3, 4, 5]), (1, [6, 7, 8, 9, 10])])] := by decide +kernel

end Verif.Segmenter
