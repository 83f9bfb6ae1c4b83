import Verif.AckVideo

/-!
# Cases of ack mapping

Concrete sessions that meet the hypotheses of the theorems, and sessions that break the claims in full.
-/

namespace Verif.Ack

open Spec

instance (i0 o0 : Nat) (L : Log) : Decidable (L.Fits i0 o0) := by unfold Log.Fits; infer_instance
instance (o0 id : Nat) (L : Log) : Decidable (L.CanAck o0 id) := by unfold Log.CanAck; infer_instance
instance (i0 o0 : Nat) (L : Log) : (e : Ev) → Decidable (Direct i0 o0 L e)
  | .inp _ _ => by unfold Direct; infer_instance
  | .filt _ _ => by unfold Direct; infer_instance
  | .out _ => by unfold Direct; infer_instance
  | .ack _ => by unfold Direct; infer_instance
instance (D i0 o0 : Nat) (L : Log) : (e : Ev) → Decidable (Filtered D i0 o0 L e)
  | .inp _ _ => by unfold Filtered; infer_instance
  | .filt _ _ => by unfold Filtered; infer_instance
  | .out _ => by unfold Filtered; infer_instance
  | .ack _ => by unfold Filtered; infer_instance
instance allowedDec {ok : Log → Ev → Prop} [∀ L e, Decidable (ok L e)] (i0 o0 : Nat) :
    (L : Log) → (es : List Ev) → Decidable (Allowed ok i0 o0 L es)
  | _, [] => isTrue trivial
  | L, e :: es => by
    have := allowedDec (ok := ok) i0 o0 (L.after i0 o0 e) es
    unfold Allowed
    infer_instance

/-! ## C89 -/

/-- Input frames of 1024 and 960 samples with ids 103 and 104 missing, output frames of 1152 samples. -/
def direct : List Ev :=
  [.inp 100 1024, .inp 101 1024, .out 1152, .inp 102 960, .ack 701, .inp 105 1024, .inp 106 1024, .out 1152,
    .out 1152]

example : Allowed (Direct 100 700) 100 700 .empty (direct ++ [.ack 702]) := by decide +kernel

/-- Frame 702 starts at sample 2304, which is sample 256 of frame 102. -/
example : ((AudioMap.init 100 700).run (direct ++ [.ack 702])).map (·.2) = .ok [⟨101, 128⟩, ⟨102, 256⟩] := by
  decide +kernel

/-- The end of frame 102 is the start of the first missing frame. -/
example : ((AudioMap.init 100 700).run
    [.inp 100 1024, .inp 103 1024, .out 1024, .out 512, .ack 701, .ack 702]).map (·.2)
      = .ok [⟨101, 0⟩, ⟨103, 512⟩] := by
  decide +kernel

/-! ## C90 -/

/-- Four frames of 1024 samples through a filter, an encoder that is one frame behind. -/
def filtered : List Ev :=
  [.inp 100 1024, .filt 100 1024, .inp 101 1024, .filt 101 1024, .out 1024, .inp 102 1024, .filt 102 1024,
    .out 1024, .ack 701, .inp 103 1024, .filt 103 1024, .out 1024]

example : Allowed (Filtered 1024 100 700) 100 700 .empty (filtered ++ [.ack 702]) := by decide +kernel

example : ((AudioMap.init 100 700).run (filtered ++ [.ack 702])).map (·.2) = .ok [⟨101, 0⟩, ⟨102, 0⟩] := by
  decide +kernel

/-- A session with a filter that keeps the samples: every input frame leaves the filter with as many samples as
it had, right after the decoder, and no more samples leave the encoder than left the filter. -/
def Keeps (i0 o0 : Nat) (L : Log) : Ev → Prop
  | .inp id n => id = i0 + L.ins.length ∧ L.filts = L.ins.length ∧ 0 < n ∧ n < 2 ^ 30
  | .filt id n => id = i0 + L.filts ∧ L.ins[L.filts]? = some n
  | .out n => 0 < n ∧ n < 2 ^ 30 ∧ L.outs.sum + n ≤ start L.ins L.filts
  | .ack id => L.CanAck o0 id

instance (i0 o0 : Nat) (L : Log) : (e : Ev) → Decidable (Keeps i0 o0 L e)
  | .inp _ _ => by unfold Keeps; infer_instance
  | .filt _ _ => by unfold Keeps; infer_instance
  | .out _ => by unfold Keeps; infer_instance
  | .ack _ => by unfold Keeps; infer_instance

/-- C90 in full: with a filter that keeps the samples, acks are exact whatever the sizes of frames. -/
def FilteredExact : Prop :=
  ∀ (i0 o0 id : Nat) (es : List Ev), 0 < i0 → i0 < 2 ^ 62 → 0 < o0 → o0 < 2 ^ 62 →
    Allowed (Keeps i0 o0) i0 o0 .empty (es ++ [.ack id]) →
    ∃ m ps p, (AudioMap.init i0 o0).run (es ++ [.ack id]) = .ok (m, ps ++ [p]) ∧
      At i0 (Log.empty.afters i0 o0 es).ins p (start (Log.empty.afters i0 o0 es).outs (id - o0))

/-- Frames of 1024 samples in, frames of 960 samples out. -/
def opus : List Ev :=
  [.inp 100 1024, .filt 100 1024, .out 960, .inp 101 1024, .filt 101 1024, .out 960, .inp 102 1024,
    .filt 102 1024, .out 960]

/-- The second output frame ends at sample 1920, the map has it end at sample 64. -/
theorem opus_run : ((AudioMap.init 100 700).run (opus ++ [.ack 702])).map (·.2) = .ok [⟨100, 64⟩] := by
  decide +kernel

/-- The map of samples is unique where frames have samples: two positions of one sample are equal in samples
before. -/
theorem at_sum {i0 t : Nat} {ins : List Nat} {p : Pos} (h : At i0 ins p t) :
    start ins (p.id - i0) + p.off = t := by
  obtain ⟨k, h1, -, h3, -⟩ := h
  have : p.id - i0 = k := by omega
  rw [this]; exact h3

/-- The result of a run gives its positions. -/
theorem run_last {m m' : AudioMap} {es : List Ev} {ps qs : List Pos} {p q : Pos}
    (h : (m.run es).map (·.2) = .ok (qs ++ [q])) (h' : m.run es = .ok (m', ps ++ [p])) : p = q := by
  rw [h', Res.map_ok] at h
  injection h with h
  exact (List.cons.inj (List.append_inj' h rfl).2).1

theorem not_filtered_exact : ¬ FilteredExact := by
  intro h
  obtain ⟨m, ps, p, h1, h2⟩ := h 100 700 702 opus (by decide) (by decide) (by decide) (by decide)
    (by decide +kernel)
  have hp := run_last (qs := []) (q := ⟨100, 64⟩) opus_run h1
  subst hp
  have := at_sum h2
  revert this
  decide +kernel

/-! ## C91 -/

/-- The durations by id after one more decoded frame, for first id `i0`: 0 for a frame the decoder skipped, the sum
for a packet that it gives out in parts. -/
def addPart (i0 : Nat) (ins : List Nat) (id n : Nat) : List Nat :=
  if id < i0 + ins.length then ins.set (id - i0) ((ins[id - i0]?).getD 0 + n)
  else ins ++ (List.replicate (id - (i0 + ins.length)) 0 ++ [n])

/-- C91 in full: after any decoded frames with ids that do not go down, and output frames made of these samples,
the ack of an output frame is mapped to the sample at which the frame starts. -/
def AnyExact : Prop :=
  ∀ (i0 o0 k : Nat) (fs : List (Nat × Nat)) (outs : List Nat), 0 < i0 → i0 < 2 ^ 62 → 0 < o0 → o0 < 2 ^ 62 →
    fs ≠ [] → fs.length < 2 ^ 20 → (∀ f ∈ fs, i0 ≤ f.1 ∧ f.1 < i0 + 2 ^ 20 ∧ 0 < f.2 ∧ f.2 < 2 ^ 10) →
    fs.Pairwise (fun a b => a.1 ≤ b.1) → (∀ n ∈ outs, 0 < n ∧ n < 2 ^ 10) →
    outs.sum ≤ (fs.map (·.2)).sum → k ≤ outs.length →
    ∃ m ps p, (AudioMap.init i0 o0).run (fs.map (fun f => .inp f.1 f.2) ++ outs.map .out ++ [.ack (o0 + k)])
        = .ok (m, ps ++ [p]) ∧
      At i0 (fs.foldl (fun ins f => addPart i0 ins f.1 f.2) []) p (start outs k)

/-- The first two packets are not decoded: the first ack divides by zero. -/
theorem skip_crashes : (AudioMap.init 100 700).run [.inp 102 512, .inp 103 512, .out 512, .ack 700] = .ub := by
  decide +kernel

/-- The second packet is decoded to two frames: the ack of the output made of the first two packets is mapped to
the start of the fourth, though the third has not been used. -/
theorem split_shifts : ((AudioMap.init 100 700).run [.inp 100 512, .inp 101 256, .inp 101 256, .inp 102 512,
    .inp 103 512, .out 512, .out 512, .ack 702]).map (·.2) = .ok [⟨103, 0⟩] := by
  decide +kernel

theorem not_any_exact : ¬ AnyExact := by
  intro h
  obtain ⟨m, ps, p, h1, -⟩ := h 100 700 0 [(102, 512), (103, 512)] [512] (by decide) (by decide) (by decide)
    (by decide) (by decide) (by decide) (by decide) (by decide) (by decide) (by decide) (by decide)
  have h2 := skip_crashes
  simp only [List.map_cons, List.map_nil, List.cons_append, List.nil_append, Nat.add_zero] at h1
  rw [h2] at h1
  cases h1

/-- C91 fails also when no frame is skipped. -/
theorem not_split_exact :
    ∃ m ps p, (AudioMap.init 100 700).run ([(100, 512), (101, 256), (101, 256), (102, 512), (103, 512)].map
        (fun f => .inp f.1 f.2) ++ [512, 512].map .out ++ [.ack 702]) = .ok (m, ps ++ [p]) ∧
      ¬ At 100 ([(100, 512), (101, 256), (101, 256), (102, 512), (103, 512)].foldl
        (fun ins f => addPart 100 ins f.1 f.2) []) p (start [512, 512] 2) := by
  have h := split_shifts
  cases hr : (AudioMap.init 100 700).run [.inp 100 512, .inp 101 256, .inp 101 256, .inp 102 512,
    .inp 103 512, .out 512, .out 512, .ack 702] with
  | err => rw [hr] at h; cases h
  | ub => rw [hr] at h; cases h
  | ok x =>
    rw [hr, Res.map_ok] at h
    injection h with h
    refine ⟨x.1, [], ⟨103, 0⟩, ?_, ?_⟩
    · rw [List.nil_append, ← h]; exact hr
    · intro ha
      have := at_sum ha
      revert this
      decide +kernel

/-- C91, the part that holds: packets may be skipped by the decoder when the first packet is not, and each
packet is one frame. The same statement as C89, without events between. Missing: see
`not_any_exact` and `not_split_exact`. -/
theorem skipped_exact_partial {i0 o0 id : Nat} {es : List Ev} (hi : 0 < i0) (hi' : i0 < 2 ^ 62) (ho : 0 < o0)
    (ho' : o0 < 2 ^ 62) (ha : Allowed (Direct i0 o0) i0 o0 .empty (es ++ [.ack id])) :
    (AudioMap.init i0 o0).run (es ++ [.ack id]) ≠ .ub ∧
    ∀ m ps p, (AudioMap.init i0 o0).run (es ++ [.ack id]) = .ok (m, ps ++ [p]) →
      At i0 (Log.empty.afters i0 o0 es).ins p (start (Log.empty.afters i0 o0 es).outs (id - o0)) := by
  obtain ⟨m, ps, p, h1, h2⟩ := audio_ack_exact hi hi' ho ho' ha
  rw [h1]
  refine ⟨by simp, ?_⟩
  intro m' ps' p' h
  injection h with h
  injection h with _ h
  have := (List.cons.inj (List.append_inj' h rfl).2).1
  rw [← this]; exact h2

/-- Acks of frames that are not known are passed on with the id of the output: an old ack makes the transcoder
ack an input frame it never got. -/
example : ((AudioMap.init 100 700).run [.inp 100 1024, .inp 101 1024, .out 1024, .out 1024, .ack 701,
    .ack 700]).map (·.2) = .ok [⟨101, 0⟩, ⟨700, 0⟩] := by
  decide +kernel

/-! ## C92 -/

instance (a b : Nat) : Decidable (Near a b) := by unfold Near; infer_instance
instance vokDec (L : VLog) : (e : VEv) → Decidable (VOk L e)
  | .inp _ _ _ => by unfold VOk; infer_instance
  | .out _ _ _ => by unfold VOk; infer_instance
  | .ack id =>
    have h : (∃ o ∈ L.outs, o.1 = id) ↔ ∃ pts, (id, pts) ∈ L.outs := by
      constructor
      · rintro ⟨⟨a, b⟩, h, rfl⟩; exact ⟨b, h⟩
      · rintro ⟨p, h⟩; exact ⟨_, h, rfl⟩
    have : Decidable (∃ pts, (id, pts) ∈ L.outs) := decidable_of_iff _ h
    inferInstanceAs (Decidable (L.acked ≤ id ∧ ∃ pts, (id, pts) ∈ L.outs))
instance vallowedDec : (L : VLog) → (es : List VEv) → Decidable (VAllowed L es)
  | _, [] => isTrue trivial
  | L, e :: es => by
    have := vallowedDec (L.after e) es
    unfold VAllowed
    infer_instance

/-- Five input frames, the first and the fourth are key frames. -/
def video : List VEv :=
  [.inp 100 9000 true, .inp 101 12000 false, .out 700 9000 true, .inp 102 15000 false, .out 701 12000 false,
    .inp 103 18000 true, .inp 104 21000 false, .out 702 15000 false, .ack 700, .out 703 18001 true]

example : VAllowed .empty (video ++ [.ack 703]) := by decide +kernel

example : ((VideoMap.init 100).run (video ++ [.ack 703])).map (·.2) = .ok [⟨100, 0⟩, ⟨103, 0⟩] := by
  decide +kernel

/-- C92 in full, for output key frames: the offset is the number of frames to skip after the key frame. -/
def VideoExact : Prop :=
  ∀ (i0 id : Nat) (es : List VEv), VAllowed .empty (es ++ [.ack id]) →
    ∃ m ps p pts, (VideoMap.init i0).run (es ++ [.ack id]) = .ok (m, ps ++ [p]) ∧
      (id, pts) ∈ (VLog.empty.afters es).outs ∧ VExact i0 (VLog.empty.afters es).ins pts p

/-- An output key frame made from an input frame that is not a key frame, two frames after one. -/
def offKey : List VEv :=
  [.inp 100 9000 true, .inp 101 12000 false, .inp 102 15000 false, .out 700 15000 true]

/-- The number of frames to skip is 2 below 2^32 and not 2. -/
theorem offKey_run : ((VideoMap.init 100).run (offKey ++ [.ack 700])).map (·.2)
    = .ok [⟨100, 4294967294⟩] := by
  decide +kernel

theorem not_video_exact : ¬ VideoExact := by
  intro h
  obtain ⟨m, ps, p, pts, h1, -, pre, f, post, h3, -, -, h5⟩ := h 100 700 offKey (by decide +kernel)
  have hr := offKey_run
  rw [h1, Res.map_ok] at hr
  injection hr with hr
  have hp : p = ⟨100, 4294967294⟩ := (List.cons.inj (List.append_inj' (t₁ := [p])
    (s₂ := []) (t₂ := [⟨100, 4294967294⟩]) hr rfl).2).1
  have hf : f ∈ (VLog.empty.afters offKey).ins := by rw [h3]; simp
  have hid : ∀ g ∈ (VLog.empty.afters offKey).ins, g.id ≤ 102 := by decide +kernel
  have := hid f hf
  rw [hp] at h5
  simp only at h5
  omega

/-- A session that starts at such a position drops every frame it gets for years. -/
theorem offKey_drops {α : Type} (fs : List α) (h : fs.length < 2 ^ 31) : deliverVideo 4294967294 fs = [] := by
  rw [deliverVideo_drops, List.drop_eq_nil_of_le (by omega)]

/-- C92 in full, for any output frame: an ack is mapped to an input frame not after the one the output frame was
made from. -/
def VideoAckOfAnyFrame : Prop :=
  ∀ (i0 id pts : Nat) (key : Bool) (es : List VEv), VAllowed .empty (es ++ [.out id pts key]) →
    ∃ m ps p, (VideoMap.init i0).run (es ++ [.out id pts key, .ack id]) = .ok (m, ps ++ [p]) ∧
      ∀ f ∈ (VLog.empty.afters es).ins, Near f.pts pts → p.id ≤ f.id

/-- The ack of a frame that is not a key frame is passed on with the id of the output. -/
theorem other_run : ((VideoMap.init 100).run [.inp 100 9000 true, .out 700 9000 true, .inp 101 12000 false,
    .out 701 12000 false, .ack 701]).map (·.2) = .ok [⟨701, 0⟩] := by
  decide +kernel

/-- The ack of a frame before the first key frame reads the mappings of an empty deque. -/
theorem empty_run : (VideoMap.init 100).run [.inp 100 9000 false, .out 700 9000 false, .ack 700] = .ub := by
  decide +kernel

theorem not_video_ack_of_any_frame : ¬ VideoAckOfAnyFrame := by
  intro h
  obtain ⟨m, ps, p, h1, -⟩ := h 100 700 9000 false [.inp 100 9000 false] (by decide +kernel)
  have h2 := empty_run
  simp only [List.cons_append, List.nil_append] at h1
  rw [h2] at h1
  cases h1

/-! ## C93 -/

example : samples (deliver 128 ([(100, List.replicate 1024 0), (101, List.replicate 1024 1)].drop 1))
    = List.replicate 896 1 := by
  decide +kernel

/-- C93 in full: a second session starts at the position `p` of the first ack of the session before, and is acked
in turn. The position it acks is the sample, counted from `p`, at which the acked frame starts. `ins` are the
durations of the input frames from `p.id` on; the session decodes them less the offset. -/
def ResumeTwice : Prop :=
  ∀ (p : Pos) (o0 n : Nat) (ins outs : List Nat), 0 < p.id → p.id < 2 ^ 62 → 0 < o0 → o0 < 2 ^ 62 →
    (∀ d ∈ ins, 0 < d ∧ d < 2 ^ 10) → ins.length < 2 ^ 10 → (∀ d ∈ outs, 0 < d ∧ d < 2 ^ 10) →
    outs.length < 2 ^ 10 → (∃ d t, ins = d :: t ∧ p.off < d) → n ≤ outs.length →
    p.off + outs.sum ≤ ins.sum →
    ∃ m ps q, (AudioMap.init p.id o0).run
        ((deliver p.off ((ins.zipIdx p.id).map fun x => (x.2, List.replicate x.1 ()))).map
          (fun f => .inp f.1 f.2.length) ++ outs.map .out ++ [.ack (o0 + n)]) = .ok (m, ps ++ [q]) ∧
      At p.id ins q (p.off + start outs n)

/-- The session starts 100 samples into frame 101. The first output frame starts there as well, its ack is
mapped to the start of frame 101. -/
theorem twice_run : ((AudioMap.init 101 701).run
    ((deliver 100 (([500, 500].zipIdx 101).map fun x => (x.2, List.replicate x.1 ()))).map
      (fun f => .inp f.1 f.2.length) ++ [600].map .out ++ [.ack (701 + 0)])).map (·.2) = .ok [⟨101, 0⟩] := by
  decide +kernel

theorem not_resume_twice : ¬ ResumeTwice := by
  intro h
  obtain ⟨m, ps, q, h1, h2⟩ := h ⟨101, 100⟩ 701 0 [500, 500] [600] (by decide) (by decide) (by decide)
    (by decide) (by decide) (by decide) (by decide) (by decide) ⟨500, [500], rfl, by decide⟩ (by decide)
    (by decide)
  have hp := run_last (qs := []) (q := ⟨101, 0⟩) twice_run h1
  subst hp
  have := at_sum h2
  revert this
  decide +kernel

end Verif.Ack
