import Verif.SyncerLip
import Verif.SyncerBack

/-!
# The syncer: cases
-/

namespace Verif.Syncer

open Verif.SyncerSpec

/-- The default settings. -/
def conf0 : Conf := ⟨90000, 10, 100, 10, 20, 20, 10⟩

def shifts (r : Res (Chan × List (Nat × Seen))) : Option (List (Nat × Int × Nat)) :=
  match r with
  | .ok (_, s) => some (s.filterMap fun x => match x.2 with | .frame _ f f' => some (x.1, f'.dts - f.dts, f'.flags) | _ => none)
  | _ => none

/-! ## C118 -/

/-- Video (0) and audio (1). The fourth frame of video jumps ahead by 200 s where no segment can start; audio follows at its ninth frame from then; then audio goes back by 30 s. -/
def evs0 : List Ev :=
  [.add true, .add false, .frame 0 ⟨1, 9000000, 90000, 1, 3000⟩, .frame 1 ⟨1, 9001000, 90500, 0, 0⟩, .frame 0 ⟨2, 9003600, 93600, 0, 3000⟩, .frame 0 ⟨3, 9007200, 18097200, 0, 3000⟩,
    .frame 1 ⟨2, 9003000, 92500, 0, 0⟩, .frame 1 ⟨3, 9003000, 94500, 0, 0⟩, .frame 1 ⟨4, 9003000, 96500, 0, 0⟩, .frame 1 ⟨5, 9003000, 98500, 0, 0⟩, .frame 1 ⟨6, 9003000, 100500, 0, 0⟩,
    .frame 1 ⟨7, 9003000, 102500, 0, 0⟩, .frame 1 ⟨8, 9003000, 104500, 0, 0⟩, .frame 1 ⟨9, 9003000, 106500, 0, 0⟩, .frame 1 ⟨10, 9003000, 18106500, 0, 0⟩,
    .frame 1 ⟨11, 9003000, 15406500, 0, 0⟩, .inactive 0, .frame 0 ⟨4, 9007300, 500, 1, 0⟩, .reconnect 1 11 9010000 9010000, .frame 1 ⟨11, 9003000, 18108500, 0, 0⟩]

/-- The run is there, and what `follows` says of it is not empty. -/
example : shifts (run conf0 {} evs0) = some
    [(0, 8907000, 17), (1, 8907000, 16), (0, 8907000, 0), (0, -9093000, 0), (1, 8907000, 0), (1, 8907000, 0), (1, 8907000, 0), (1, 8907000, 0), (1, 8907000, 0), (1, 8907000, 0), (1, 8907000, 0),
      (1, 8907000, 0), (1, -9093000, 16), (1, -6403500, 16), (0, 9006800, 17), (1, -9093000, 0)] := by decide +kernel

/-! ## C119 -/

/-- Video and two tracks of audio; the third is two periods behind. -/
def evs1 : List Ev :=
  [.add true, .add false, .add false, .frame 0 ⟨1, 9000000000, 1000000000, 1, 3000⟩, .frame 1 ⟨1, 9000000900, 1000000000, 0, 0⟩, .frame 2 ⟨1, 9000000900, 1000000000 - 773094113280, 0, 0⟩,
    .frame 0 ⟨2, 9000003000, 1000003600, 0, 6000⟩, .inactive 1, .frame 1 ⟨2, 9000003600, 1000002000, 0, 0⟩, .frame 0 ⟨3, 9020003000, 1020003600, 0, 3000⟩]

def turns : Nat → Nat
  | 2 => 2
  | _ => 0

theorem sane0 : Sane conf0 9000 := by unfold Sane period conf0; decide

theorem far0 : Far conf0 9000 8000000000 := by
  intro k
  show 10 * 90000 + 9000 ≤ ((8000000000 : Int) - (k * 386547056640 : Nat)).natAbs
  omega

theorem timed_of {k : Int} {e : Nat} {v : Bool} {f : Frame} (h : (-2 ^ 60 ≤ f.created ∧ f.created ≤ 2 ^ 60) ∧ (-2 ^ 60 ≤ f.dts ∧ f.dts ≤ 2 ^ 60) ∧ (-2 ^ 60 ≤ pts v f ∧ pts v f ≤ 2 ^ 60) ∧
    (f.created - pts v f - k).natAbs ≤ e) : Timed k e v f := h

/-- The hypotheses of `together_partial`. -/
example : Source 8000000000 9000 (period conf0) (fun i => (turns i : Int)) [] evs1 := by
  refine ⟨true, none, rfl, timed_of (by decide), fun _ => Or.inr (by decide), fun x h => (by cases h), ?_⟩
  refine ⟨false, none, rfl, timed_of (by decide), fun _ => Or.inl rfl, fun x h => (by cases h), ?_⟩
  refine ⟨false, none, rfl, timed_of (by decide), fun _ => Or.inl rfl, fun x h => (by cases h), ?_⟩
  refine ⟨true, _, rfl, timed_of (by decide), fun h => (by cases h), fun x h => (by cases h; decide), ?_⟩
  refine ⟨false, _, rfl, ?_⟩
  refine ⟨false, none, rfl, timed_of (by decide), fun _ => Or.inl rfl, fun x h => (by cases h), ?_⟩
  refine ⟨true, _, rfl, timed_of (by decide), fun h => (by cases h), fun x h => (by cases h; decide), ?_⟩
  trivial

example : shifts (run conf0 {} evs1) = some
    [(0, 7999997000, 17), (1, 7999997000, 16), (2, 7999997000 + 2 * 386547056640, 16), (0, 7999997000, 0), (1, 7999997000, 16), (0, 7999997000, 0)] := by decide +kernel

/-- C119 for any number of wraps. -/
def Together : Prop := ∀ (c : Conf) (e : Nat) (K : Int) (m : Nat → Int) (evs : List Ev), Sane c e → (e : Int) ≤ K → Far c e K → (∀ j, firstTrack evs = some j → m j = 0) →
  Source K e (period c) m [] evs → ∃ ch s a, run c {} evs = .ok (ch, s) ∧ ∀ i video f f', (i, Seen.frame video f f') ∈ s → f'.dts = f.dts + a + m i * period c

/-- Frames and times that differ. -/
theorem apart {c : Conf} {evs : List Ev} {m : Nat → Int} {W : Nat} {i j : Nat} {v w : Bool} {f f' g g' : Frame} {ch : Chan} {s : List (Nat × Seen)} {a : Int} (h : run c {} evs = .ok (ch, s))
    (hall : ∀ i video f f', (i, Seen.frame video f f') ∈ s → f'.dts = f.dts + a + m i * W)
    (hr : ∃ x, run c {} evs = .ok x ∧ (i, Seen.frame v f f') ∈ x.2 ∧ (j, Seen.frame w g g') ∈ x.2) : f'.dts - f.dts - m i * W = g'.dts - g.dts - m j * W := by
  obtain ⟨x, x1, x2, x3⟩ := hr
  rw [h] at x1
  cases x1
  have h1 := hall _ _ _ _ x2
  have h2 := hall _ _ _ _ x3
  omega

def evs2 : List Ev := [.add false, .add false, .frame 0 ⟨1, 8000000000, 0, 0, 0⟩, .frame 1 ⟨1, 8000000900, 386547056640, 0, 0⟩]

def ahead : Nat → Int
  | 1 => -1
  | _ => 0

def found (r : Res (Chan × List (Nat × Seen))) (x y : Nat × Seen) : Bool :=
  match r with
  | .ok (_, s) => s.contains x && s.contains y
  | _ => false

theorem found_run {r : Res (Chan × List (Nat × Seen))} {x y : Nat × Seen} (h : found r x y = true) : ∃ z, r = .ok z ∧ x ∈ z.2 ∧ y ∈ z.2 := by
  unfold found at h
  split at h
  · simp only [Bool.and_eq_true, List.contains_iff_mem] at h
    exact ⟨_, rfl, h.1, h.2⟩
  · cases h

/-- A track that is one period ahead of the first does not get the shift of the channel: rounding is done without sign. -/
theorem not_together : ¬ Together := by
  intro h
  obtain ⟨ch, s, a, r1, r2⟩ := h conf0 9000 8000000000 ahead evs2 sane0 (by decide) far0 (fun j hj => (by cases hj; rfl))
    ⟨false, none, rfl, timed_of (by decide), fun _ => Or.inl rfl, fun x h => (by cases h), false, none, rfl, timed_of (by decide), fun _ => Or.inl rfl, fun x h => (by cases h), trivial⟩
  have := apart (i := 0) (j := 1) (v := false) (w := false) (f := ⟨1, 8000000000, 0, 0, 0⟩) (f' := ⟨1, 8000000000, 8000000000, 16, 0⟩) (g := ⟨1, 8000000900, 386547056640, 0, 0⟩)
    (g' := ⟨1, 8000000900, 8000000900, 16, 0⟩) r1 r2 (found_run (by decide +kernel))
  revert this
  decide

/-- C119 for sources that may be on time. -/
def TogetherNear : Prop := ∀ (c : Conf) (e : Nat) (K : Int) (evs : List Ev), Sane c e → (e : Int) ≤ K → Source K e (period c) (fun _ => 0) [] evs →
  ∃ ch s a, run c {} evs = .ok (ch, s) ∧ ∀ i video f f', (i, Seen.frame video f f') ∈ s → f'.dts = f.dts + a + 0 * period c

def evs3 : List Ev := [.add false, .add false, .frame 0 ⟨1, 899000, 0, 0, 0⟩, .frame 1 ⟨1, 901000, 0, 0, 0⟩]

/-- A channel starts with the correction 0, as if there had been a source that was on time: a source that is 10 s behind gets it for one track and not for the other. -/
theorem not_near : ¬ TogetherNear := by
  intro h
  obtain ⟨ch, s, a, r1, r2⟩ := h conf0 9000 900000 evs3 sane0 (by decide)
    ⟨false, none, rfl, timed_of (by decide), fun _ => Or.inl rfl, fun x h => (by cases h), false, none, rfl, timed_of (by decide), fun _ => Or.inl rfl, fun x h => (by cases h), trivial⟩
  have := apart (m := fun _ => 0) (i := 0) (j := 1) (v := false) (w := false) (f := ⟨1, 899000, 0, 0, 0⟩) (f' := ⟨1, 899000, 0, 16, 0⟩) (g := ⟨1, 901000, 0, 0, 0⟩)
    (g' := ⟨1, 901000, 901000, 16, 0⟩) r1 r2 (found_run (by decide +kernel))
  revert this
  decide

/-! ## C120 -/

def told (i : Nat) (evs : List Ev) : Res (List Seen) := (run conf0 {} evs).map fun x => story i x.2

/-- Audio: the track connects again after the second frame; the fourth jumps by 200 s and gets a new shift, but is lost when the track connects once more; then it comes without the jump. -/
def evs4 : List Ev :=
  [.add false, .frame 0 ⟨1, 9000000, 90000, 0, 0⟩, .frame 0 ⟨2, 9002000, 92000, 0, 0⟩, .reconnect 0 3 9002000 9002000, .frame 0 ⟨3, 9004000, 94000, 0, 0⟩,
    .frame 0 ⟨4, 9006000, 18096000, 0, 0⟩, .reconnect 0 4 9004000 9004000, .frame 0 ⟨4, 9006000, 96000, 0, 0⟩]

def tale4 : List Seen :=
  [.reset, .frame false ⟨1, 9000000, 90000, 0, 0⟩ ⟨1, 9000000, 9000000, 16, 0⟩, .frame false ⟨2, 9002000, 92000, 0, 0⟩ ⟨2, 9002000, 9002000, 0, 0⟩, .back 3,
    .frame false ⟨3, 9004000, 94000, 0, 0⟩ ⟨3, 9004000, 9004000, 0, 0⟩, .frame false ⟨4, 9006000, 18096000, 0, 0⟩ ⟨4, 9006000, 9006000, 16, 0⟩, .back 4,
    .frame false ⟨4, 9006000, 96000, 0, 0⟩ ⟨4, 9006000, 9006000, 0, 0⟩]

/-- The hypotheses of `resumes_partial` can be met, and what it says of the last frame is not empty. -/
example : told 0 evs4 = .ok tale4 ∧ Ordered [] tale4 ∧ Loses [] tale4 := by
  refine ⟨by decide +kernel, ?_, ?_⟩
  · simp [tale4, Ordered]
  · simp [tale4, Loses, Stays]

/-- C120 for any number of connections. -/
def Resume : Prop := ∀ (c : Conf) (evs : List Ev) (ch : Chan) (s : List (Nat × Seen)) (i : Nat), run c {} evs = .ok (ch, s) → Ordered [] (story i s) → Resumes [] false (story i s)

/-- Frame 100 is lost and comes again 15 s later; after the next connection its first shift is back. -/
def evs5 : List Ev :=
  [.add false, .frame 0 ⟨100, 9000000, 0, 0, 0⟩, .reconnect 0 100 inv inv, .frame 0 ⟨100, 10350000, 0, 0, 0⟩, .frame 0 ⟨101, 10352000, 2000, 0, 0⟩, .reconnect 0 102 10352000 10352000,
    .frame 0 ⟨102, 10354000, 4000, 0, 0⟩]

def tale5 : List Seen :=
  [.reset, .frame false ⟨100, 9000000, 0, 0, 0⟩ ⟨100, 9000000, 9000000, 16, 0⟩, .back 100, .frame false ⟨100, 10350000, 0, 0, 0⟩ ⟨100, 10350000, 10350000, 16, 0⟩,
    .frame false ⟨101, 10352000, 2000, 0, 0⟩ ⟨101, 10352000, 10352000, 0, 0⟩, .back 102, .frame false ⟨102, 10354000, 4000, 0, 0⟩ ⟨102, 10354000, 9004000, 0, 0⟩]

/-- Entries of lost frames stay in the log when none is found that is older than the next frame. -/
theorem not_resumes : ¬ Resume := by
  intro h
  have ht : told 0 evs5 = .ok tale5 := by decide +kernel
  obtain ⟨⟨ch, s⟩, h1, h2⟩ := map_ok_iff ht
  have h2 : tale5 = story 0 s := h2
  have := h conf0 evs5 ch s 0 h1 (by rw [← h2]; simp [tale5, Ordered])
  rw [← h2] at this
  simp [tale5, Resumes, starts] at this

end Verif.Syncer
