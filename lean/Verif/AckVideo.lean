import Verif.AckAudio

/-!
# Acks of video, and sessions that start again
-/

namespace Verif.Ack

open Spec

/-- The position the map keeps for a frame after the frames `pre`. -/
def posOf (i0 : Nat) (pre : List Frame) (f : Frame) : Pos :=
  if f.key then ⟨f.id, 0⟩ else ⟨lastKeyOf i0 pre, u32 ((lastKeyOf i0 pre : Nat) - f.id)⟩

theorem lastKeyOf_append (i0 : Nat) (pre : List Frame) (f : Frame) :
    lastKeyOf i0 (pre ++ [f]) = if f.key then f.id else lastKeyOf i0 pre := by
  simp [lastKeyOf, List.foldl_append]

/-- The state of the video map. -/
structure InvV (i0 : Nat) (L : VLog) (m : VideoMap) : Prop where
  key : m.lastKey = lastKeyOf i0 L.ins
  sound : ∀ x ∈ m.input, ∃ pre f post, L.ins = pre ++ f :: post ∧ x = ⟨f.pts, posOf i0 pre f⟩
  complete : ∀ f ∈ L.ins, (∀ o ∈ L.outs, o.2 < f.pts + 450) → ∃ x ∈ m.input, x.pts = f.pts
  sorted : m.input.Pairwise fun x y => x.pts + 900 ≤ y.pts
  small : ∀ f ∈ L.ins, f.pts < 2 ^ 62
  out : ∀ o ∈ L.outs, L.acked ≤ o.1 → ∃ x ∈ m.output, x.1 = o.1
  from' : ∀ x ∈ m.output, ∃ pts, (x.1, pts) ∈ L.outs ∧ VAt i0 L.ins pts x.2
  ids : m.output.Pairwise fun x y => x.1 < y.1

theorem VAt.append {i0 : Nat} {ins t : List Frame} {pts : Nat} {p : Pos} (h : VAt i0 ins pts p) :
    VAt i0 (ins ++ t) pts p := by
  obtain ⟨pre, f, post, h1, h2, h3, h4⟩ := h
  exact ⟨pre, f, post ++ t, by rw [h1]; simp, h2, h3, h4⟩

theorem findPts_ok : ∀ (q : List VIn) (pts : Nat), pts < 2 ^ 62 → (∀ x ∈ q, x.pts < 2 ^ 62) →
    (∃ x ∈ q, Near x.pts pts) →
    ∃ pre x post, findPts q pts = .ok (x, x :: post) ∧ q = pre ++ x :: post ∧ Near x.pts pts
  | [], _, _, _, h => by obtain ⟨x, hx, -⟩ := h; cases hx
  | a :: q, pts, hp, hq, h => by
    have ha := hq a (by simp)
    have hd : i64 ((a.pts : Int) - pts) = (a.pts : Int) - pts := i64_of (by omega) (by omega)
    unfold findPts
    dsimp only
    rw [hd, if_neg (by omega)]
    by_cases hn : Near a.pts pts
    · rw [if_pos (by unfold Near at hn; omega)]
      exact ⟨[], a, q, rfl, rfl, hn⟩
    · rw [if_neg (by unfold Near at hn; omega)]
      obtain ⟨x, hx, hx'⟩ := h
      have hx2 : x ∈ q := by
        rcases List.mem_cons.mp hx with rfl | hx
        · exact absurd hx' hn
        · exact hx
      obtain ⟨pre, y, post, e1, e2, e3⟩ := findPts_ok q pts hp (fun z hz => hq z (by simp [hz]))
        ⟨x, hx2, hx'⟩
      exact ⟨a :: pre, y, post, e1, by rw [e2]; rfl, e3⟩

theorem findOut_ok : ∀ (q : List (Nat × Pos)) (id : Nat), (∃ x ∈ q, x.1 = id) →
    ∃ pre x post, findOut q id = some (x.2, x :: post) ∧ q = pre ++ x :: post ∧ x.1 = id
  | [], _, h => by obtain ⟨x, hx, -⟩ := h; cases hx
  | a :: q, id, h => by
    unfold findOut
    by_cases ha : a.1 = id
    · rw [if_pos ha]
      exact ⟨[], a, q, rfl, rfl, ha⟩
    · rw [if_neg ha]
      obtain ⟨x, hx, hx'⟩ := h
      have hx2 : x ∈ q := by
        rcases List.mem_cons.mp hx with rfl | hx
        · exact absurd hx' ha
        · exact hx
      obtain ⟨pre, y, post, e1, e2, e3⟩ := findOut_ok q id ⟨x, hx2, hx'⟩
      exact ⟨a :: pre, y, post, e1, by rw [e2]; rfl, e3⟩

theorem InvV.addIn {i0 : Nat} {L : VLog} {m : VideoMap} {id pts : Nat} {key : Bool} (I : InvV i0 L m)
    (h : VOk L (.inp id pts key)) :
    InvV i0 (L.after (.inp id pts key)) (m.addIn id pts key) := by
  obtain ⟨h1, h2⟩ := h
  have hm : m.addIn id pts key = ⟨m.input ++ [⟨pts, posOf i0 L.ins ⟨id, pts, key⟩⟩], m.output,
      lastKeyOf i0 (L.ins ++ [⟨id, pts, key⟩])⟩ := by
    unfold VideoMap.addIn posOf
    rw [lastKeyOf_append, I.key]
    cases key <;> simp
  rw [hm]
  have hpts : ∀ x ∈ m.input, x.pts + 900 ≤ pts := by
    intro x hx
    obtain ⟨pre, f, post, e1, rfl⟩ := I.sound x hx
    exact h2 f (by rw [e1]; simp)
  refine ⟨rfl, ?_, ?_, ?_, ?_, I.out, ?_, I.ids⟩
  · intro x hx
    simp only [List.mem_append, List.mem_singleton] at hx
    rcases hx with hx | rfl
    · obtain ⟨pre, f, post, e1, e2⟩ := I.sound x hx
      exact ⟨pre, f, post ++ [⟨id, pts, key⟩], by simp [VLog.after, e1], e2⟩
    · exact ⟨L.ins, ⟨id, pts, key⟩, [], rfl, rfl⟩
  · intro f hf ho
    simp only [VLog.after, List.mem_append, List.mem_singleton] at hf
    rcases hf with hf | rfl
    · obtain ⟨x, hx, e⟩ := I.complete f hf ho
      exact ⟨x, by simp [hx], e⟩
    · exact ⟨⟨pts, posOf i0 L.ins ⟨id, pts, key⟩⟩, by simp, rfl⟩
  · simp only
    rw [List.pairwise_append]
    refine ⟨I.sorted, by simp, ?_⟩
    intro x hx y hy
    simp only [List.mem_singleton] at hy
    subst hy
    exact hpts x hx
  · intro f hf
    simp only [VLog.after, List.mem_append, List.mem_singleton] at hf
    rcases hf with hf | rfl
    · exact I.small f hf
    · exact h1
  · intro x hx
    obtain ⟨p, e1, e2⟩ := I.from' x hx
    exact ⟨p, e1, VAt.append e2⟩

theorem InvV.addOut {i0 : Nat} {L : VLog} {m : VideoMap} {id pts : Nat} {key : Bool} (I : InvV i0 L m)
    (h : VOk L (.out id pts key)) :
    ∃ m', m.addOut id pts key = .ok m' ∧ InvV i0 (L.after (.out id pts key)) m' := by
  cases key with
  | false => exact ⟨m, rfl, I⟩
  | true =>
    obtain ⟨h1, ⟨f, hf, hn⟩, h3⟩ := h rfl
    have hsm : ∀ x ∈ m.input, x.pts < 2 ^ 62 := by
      intro x hx
      obtain ⟨pre, f, post, e1, rfl⟩ := I.sound x hx
      exact I.small f (by rw [e1]; simp)
    obtain ⟨x, hx, hxe⟩ := I.complete f hf (fun o ho => by
      have := (h3 o ho).2
      unfold Near at hn; omega)
    obtain ⟨pre, y, post, e1, e2, e3⟩ := findPts_ok m.input pts h1 hsm ⟨x, hx, by rw [hxe]; exact hn⟩
    refine ⟨{ m with input := y :: post, output := m.output ++ [(id, y.pos)] }, ?_, ?_⟩
    · unfold VideoMap.addOut
      rw [if_pos rfl, e1]; rfl
    have hsort := I.sorted
    rw [e2] at hsort
    have hlog : L.after (.out id pts true) = { L with outs := L.outs ++ [(id, pts)] } := rfl
    rw [hlog]
    refine ⟨I.key, ?_, ?_, ?_, I.small, ?_, ?_, ?_⟩
    · intro z hz
      exact I.sound z (by rw [e2]; simp only [List.mem_append]; exact .inr hz)
    · intro g hg ho
      obtain ⟨z, hz, hze⟩ := I.complete g hg (fun o ho' => ho o (by simp [ho']))
      rw [e2, List.mem_append] at hz
      rcases hz with hz | hz
      · exfalso
        have l1 := (List.pairwise_append.mp hsort).2.2 z hz y (by simp)
        have l2 := ho (id, pts) (by simp)
        simp only at l2
        unfold Near at e3
        omega
      · exact ⟨z, hz, hze⟩
    · exact (List.pairwise_append.mp hsort).2.1
    · intro o ho ha
      simp only [List.mem_append, List.mem_singleton] at ho
      rcases ho with ho | rfl
      · obtain ⟨z, hz, e⟩ := I.out o ho ha
        exact ⟨z, by simp [hz], e⟩
      · exact ⟨(id, y.pos), by simp, rfl⟩
    · intro z hz
      simp only [List.mem_append, List.mem_singleton] at hz
      rcases hz with hz | rfl
      · obtain ⟨p, g1, g2⟩ := I.from' z hz
        exact ⟨p, by simp [g1], g2⟩
      · refine ⟨pts, by simp, ?_⟩
        obtain ⟨pre', g, post', g1, g2⟩ := I.sound y (by rw [e2]; simp)
        refine ⟨pre', g, post', g1, ?_, ?_, ?_⟩
        · rw [g2] at e3; exact e3
        · rw [g2, lastKeyOf_append]
          simp only [posOf]
          split <;> rfl
        · intro hk
          rw [g2]
          simp [posOf, hk]
    · simp only
      rw [List.pairwise_append]
      refine ⟨I.ids, by simp, ?_⟩
      intro z hz w hw
      simp only [List.mem_singleton] at hw
      subst hw
      obtain ⟨p, g1, -⟩ := I.from' z hz
      exact (h3 _ g1).1

theorem InvV.ack {i0 : Nat} {L : VLog} {m : VideoMap} {id : Nat} (I : InvV i0 L m)
    (h : VOk L (.ack id)) :
    ∃ m' p pts, m.ack id = .ok (m', p) ∧ (id, pts) ∈ L.outs ∧ VAt i0 L.ins pts p ∧
      InvV i0 (L.after (.ack id)) m' := by
  obtain ⟨h1, pts, h2⟩ := h
  obtain ⟨pre, x, post, e1, e2, e3⟩ := findOut_ok m.output id (I.out _ h2 h1)
  obtain ⟨p, g1, g2⟩ := I.from' x (by rw [e2]; simp)
  have hids := I.ids
  rw [e2] at hids
  refine ⟨{ m with output := x :: post }, x.2, p, ?_, by rw [← e3]; exact g1, g2, ?_⟩
  · unfold VideoMap.ack
    rw [e1]
  · refine ⟨I.key, I.sound, I.complete, I.sorted, I.small, ?_, ?_, ?_⟩
    · intro o ho ha
      have ha' : id ≤ o.1 := ha
      obtain ⟨z, hz, e⟩ := I.out o ho (by omega)
      rw [e2, List.mem_append] at hz
      rcases hz with hz | hz
      · exfalso
        have := (List.pairwise_append.mp hids).2.2 z hz x (by simp)
        omega
      · exact ⟨z, hz, e⟩
    · intro z hz
      exact I.from' z (by rw [e2]; simp only [List.mem_append]; exact .inr hz)
    · exact (List.pairwise_append.mp hids).2.1

theorem InvV.init (i0 : Nat) : InvV i0 .empty (.init i0) := by
  refine ⟨rfl, ?_, ?_, ?_, ?_, ?_, ?_, ?_⟩ <;> simp [VideoMap.init, VLog.empty]

theorem vrun_append (m : VideoMap) (es es' : List VEv) :
    m.run (es ++ es') = (do
      let (m, ps) ← m.run es
      let (m, qs) ← m.run es'
      .ok (m, ps ++ qs)) := by
  induction es generalizing m with
  | nil =>
    simp only [List.nil_append, VideoMap.run, Res.bind_ok]
    cases m.run es' <;> rfl
  | cons e es ih =>
    simp only [List.cons_append, VideoMap.run]
    cases m.step e with
    | err => rfl
    | ub => rfl
    | ok x =>
      simp only [Res.bind_ok, ih]
      cases x.1.run es with
      | err => rfl
      | ub => rfl
      | ok y =>
        simp only [Res.bind_ok]
        cases y.1.run es' with
        | err => rfl
        | ub => rfl
        | ok z => simp [List.append_assoc]

theorem VAllowed_append : ∀ {L : VLog} {es es' : List VEv},
    VAllowed L (es ++ es') ↔ VAllowed L es ∧ VAllowed (L.afters es) es'
  | L, [], es' => by simp [VAllowed, VLog.afters]
  | L, e :: es, es' => by
    simp only [List.cons_append, VAllowed, VLog.afters, List.foldl_cons]
    rw [VAllowed_append (L := L.after e)]
    simp only [VLog.afters, and_assoc]

theorem InvV.run {i0 : Nat} : ∀ {L : VLog} {m : VideoMap} {es : List VEv}, InvV i0 L m →
    VAllowed L es → ∃ m' ps, m.run es = .ok (m', ps) ∧ InvV i0 (L.afters es) m'
  | L, m, [], I, _ => ⟨m, [], rfl, I⟩
  | L, m, e :: es, I, ha => by
    obtain ⟨h1, h3⟩ := ha
    have hs : ∃ m1 ps, m.step e = .ok (m1, ps) ∧ InvV i0 (L.after e) m1 := by
      cases e with
      | inp id pts key => exact ⟨_, [], rfl, I.addIn h1⟩
      | out id pts key =>
        obtain ⟨m1, g1, g2⟩ := I.addOut h1
        refine ⟨m1, [], ?_, g2⟩
        unfold VideoMap.step
        dsimp only
        rw [g1, Res.map_ok]
      | ack id =>
        obtain ⟨m1, p, pts, g1, -, -, g2⟩ := I.ack h1
        refine ⟨m1, [p], ?_, g2⟩
        unfold VideoMap.step
        dsimp only
        rw [g1, Res.map_ok]
    obtain ⟨m1, ps, s1, I1⟩ := hs
    obtain ⟨m2, qs, s2, I2⟩ := InvV.run I1 h3
    refine ⟨m2, ps ++ qs, ?_, I2⟩
    unfold VideoMap.run
    rw [s1]
    simp only [Res.bind_ok, s2]

/-- C92, the part that holds. The ack of an output key frame is mapped to the id of the last key frame up to
the input frame the output frame was made from, and to that very frame with offset 0 when it is a key frame.
Missing: the offset when the input frame is no key frame (`not_video_exact`), and acks of
other output frames (`not_video_ack_of_any_frame`). -/
theorem video_ack_partial {i0 id : Nat} {es : List VEv} (ha : VAllowed .empty (es ++ [.ack id])) :
    ∃ m ps p pts, (VideoMap.init i0).run (es ++ [.ack id]) = .ok (m, ps ++ [p]) ∧
      (id, pts) ∈ (VLog.empty.afters es).outs ∧ VAt i0 (VLog.empty.afters es).ins pts p := by
  rw [VAllowed_append] at ha
  obtain ⟨h1, h2, -⟩ := ha
  obtain ⟨m1, ps, s1, I⟩ := (InvV.init i0).run h1
  obtain ⟨m2, p, pts, g1, g2, g3, -⟩ := I.ack h2
  refine ⟨m2, ps, p, pts, ?_, g2, g3⟩
  rw [vrun_append, s1]
  simp only [Res.bind_ok, VideoMap.run, VideoMap.step, g1, Res.map_ok, List.append_nil]

/-! ## Start at a position -/

/-- The samples of a list of frames. -/
def samples {α : Type} (fs : List (Nat × List α)) : List α := fs.flatMap (·.2)

/-- Skipping the offset drops so many samples, whatever the frames. -/
theorem deliver_drops {α : Type} : ∀ (off : Nat) (fs : List (Nat × List α)),
    samples (deliver off fs) = (samples fs).drop off
  | off, [] => by simp [deliver, samples]
  | off, f :: fs => by
    unfold deliver
    by_cases h0 : 0 < off
    · rw [if_pos h0]
      by_cases h1 : off < f.2.length
      · rw [if_pos h1]
        simp only [samples, List.flatMap_cons]
        rw [List.drop_append_of_le_length (by omega)]
      · rw [if_neg h1, deliver_drops]
        simp only [samples, List.flatMap_cons]
        rw [List.drop_append, List.drop_eq_nil_of_le (as := f.2) (by omega), List.nil_append]
    · rw [if_neg h0]
      have : off = 0 := by omega
      rw [this]; rfl

theorem samples_drop {α : Type} (fs : List (Nat × List α)) (k : Nat) :
    samples (fs.drop k) = (samples fs).drop (start (fs.map (·.2.length)) k) := by
  induction fs generalizing k with
  | nil => simp [samples]
  | cons f fs ih =>
    cases k with
    | zero => simp [start]
    | succ k =>
      simp only [List.drop_succ_cons, ih, start, List.map_cons, List.take_succ_cons, List.sum_cons]
      simp only [samples, List.flatMap_cons]
      rw [List.drop_append, List.drop_eq_nil_of_le (as := f.2) (by omega), List.nil_append]
      congr 1
      omega

/-- Skipping at a position drops the samples before it. -/
theorem resume_at {α : Type} {i0 t : Nat} {p : Pos} {fs : List (Nat × List α)}
    (h : At i0 (fs.map (·.2.length)) p t) :
    samples (deliver p.off (fs.drop (p.id - i0))) = (samples fs).drop t := by
  obtain ⟨k, h1, -, h3, -⟩ := h
  have : p.id - i0 = k := by omega
  rw [deliver_drops, this, samples_drop, List.drop_drop, h3]

/-- Of video, the offset is a number of frames. -/
theorem deliverVideo_drops {α : Type} : ∀ (off : Nat) (fs : List α), deliverVideo off fs = fs.drop off
  | off, [] => by simp [deliverVideo]
  | off, f :: fs => by
    unfold deliverVideo
    by_cases h0 : 0 < off
    · rw [if_pos h0, deliverVideo_drops]
      cases off with
      | zero => omega
      | succ n => simp
    · have : off = 0 := by omega
      rw [if_neg h0, this]; rfl

/-- C93, the part that holds. The receiver of the output acks frame `id` and the session breaks. The sender
sends the input from the acked position on, and a new session passes on exactly the samples from the start of
output frame `id` on: as many samples of the input are left out as there were samples in the output
frames before. Missing: acks of the new session (`not_resume_twice`). -/
theorem resume_exact_partial {α : Type} {i0 o0 id : Nat} {es : List Ev} {fs : List (Nat × List α)}
    (hi : 0 < i0) (hi' : i0 < 2 ^ 62) (ho : 0 < o0) (ho' : o0 < 2 ^ 62)
    (ha : Allowed (Direct i0 o0) i0 o0 .empty (es ++ [.ack id]))
    (hfs : fs.map (·.2.length) = (Log.empty.afters i0 o0 es).ins) :
    ∃ m ps p, (AudioMap.init i0 o0).run (es ++ [.ack id]) = .ok (m, ps ++ [p]) ∧
      samples (deliver p.off (fs.drop (p.id - i0)))
        = (samples fs).drop (start (Log.empty.afters i0 o0 es).outs (id - o0)) := by
  obtain ⟨m, ps, p, h1, h2⟩ := audio_ack_exact hi hi' ho ho' ha
  rw [← hfs] at h2
  exact ⟨m, ps, p, h1, resume_at h2⟩

end Verif.Ack
