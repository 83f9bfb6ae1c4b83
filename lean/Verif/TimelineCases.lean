import Verif.TimelineEnd

/-!
# Cases of the timelines, and what does not hold
-/

namespace Verif.Timeline

open Verif.SegmentList (Seg Inv segs AddOk)

instance {α : Type} (o : Option α) (P : α → Prop) [DecidablePred P] : Decidable (∀ g, o = some g → P g) :=
  match o with
  | none => isTrue (by simp)
  | some x => if h : P x then isTrue (fun g e => by injection e with e; exact e ▸ h) else isFalse (fun h' => h (h' x rfl))

instance {α : Type} (r : Res α) (P : α → Prop) [DecidablePred P] : Decidable (∃ x, r = .ok x ∧ P x) :=
  match r with
  | .ok x => if h : P x then isTrue ⟨x, rfl, h⟩ else isFalse (fun ⟨_, e, h'⟩ => by injection e with e; exact h (e ▸ h'))
  | .err => isFalse (by simp)
  | .ub => isFalse (by simp)

instance (mono : Bool) (l : List Seg) (idx : Nat) (time : Int) (dur : Nat) : Decidable (AddOk mono l idx time dur) := by
  unfold AddOk; infer_instance

instance (mono : Bool) (ch : Ch) (H : List Seg) (op : Op) : Decidable (Guard mono ch H op) := by
  cases op <;> unfold Guard <;> infer_instance

instance (op : Op) : Decidable (NoFixed op) := by
  cases op <;> unfold NoFixed <;> infer_instance

instance (t : Tl) (mid : Int) : Decidable (Admits t mid) := by unfold Admits; infer_instance

instance (H : List Seg) (is : List Nat) (w : List Seg) : Decidable (Of H is w) := by unfold Of; infer_instance

/-- Calls one after the other, as long as they are allowed. -/
def run (mono : Bool) : List Op → Ch × List Seg → Option (Ch × List Seg)
  | [], s => some s
  | op :: ops, s => if Guard mono s.1 s.2 op then match step s.1 op with
    | .ok s' => run mono ops (s', log s.2 op)
    | _ => none
    else none

theorem run_reach {mono : Bool} : ∀ (ops : List Op) (s s' : Ch × List Seg), Reach mono s.1 s.2 → run mono ops s = some s' → Reach mono s'.1 s'.2
  | [], s, s', h, e => by injection e with e; exact e ▸ h
  | op :: ops, s, s', h, e => by
    unfold run at e
    split at e
    · rename_i hg
      cases hs : step s.1 op with
      | ok s1 => rw [hs] at e; exact run_reach ops (s1, log s.2 op) s' (.step h hg hs) e
      | err => rw [hs] at e; cases e
      | ub => rw [hs] at e; cases e
    · cases e

theorem run_later {mono : Bool} : ∀ (ops : List Op) (r s s' : Ch × List Seg), Later mono r.1 r.2 s.1 s.2 → run mono ops s = some s' →
    Later mono r.1 r.2 s'.1 s'.2
  | [], r, s, s', h, e => by injection e with e; exact e ▸ h
  | op :: ops, r, s, s', h, e => by
    unfold run at e
    split at e
    · rename_i hg
      cases hs : step s.1 op with
      | ok s1 => rw [hs] at e; exact run_later ops r (s1, log s.2 op) s' (.step h hg hs) e
      | err => rw [hs] at e; cases e
      | ub => rw [hs] at e; cases e
    · cases e

theorem run_by {P : Op → Prop} {mono : Bool} : ∀ (ops : List Op) (s s' : Ch × List Seg), (∀ op ∈ ops, P op) → ReachBy P mono s.1 s.2 →
    run mono ops s = some s' → ReachBy P mono s'.1 s'.2
  | [], s, s', _, h, e => by injection e with e; exact e ▸ h
  | op :: ops, s, s', hP, h, e => by
    unfold run at e
    split at e
    · rename_i hg
      cases hs : step s.1 op with
      | ok s1 =>
        rw [hs] at e
        exact run_by ops (s1, log s.2 op) s' (fun o ho => hP o (List.mem_cons_of_mem _ ho)) (.step h (hP op List.mem_cons_self) hg hs) e
      | err => rw [hs] at e; cases e
      | ub => rw [hs] at e; cases e
    · cases e

def start : Ch × List Seg := (init 5 1000, [])

theorem start_reach (mono : Bool) : Reach mono start.1 start.2 := .init 5 1000 (by decide)

theorem get_run {mono : Bool} {ops : List Op} (h : (run mono ops start).isSome = true) : Reach mono ((run mono ops start).get h).1 ((run mono ops start).get h).2 :=
  run_reach ops start _ (start_reach mono) (by simp)

/-! ## A channel with two timelines -/

/-- A live timeline with at most four segments in the playlist, and a timeline that keeps everything. -/
def live : Op := .create ⟨0, 0, -1, 0, 0, true, false⟩ ⟨0, 4, 0, 0⟩ 0
def keeps : Op := .create ⟨0, 0, -1, 0, 0, true, false⟩ ⟨0, 0, 0, 1⟩ 0

/-- Three segments, and a gap before the last one. -/
def early : List Op := [live, keeps, .add 1 0 5 4000 false, .next 6, .add 2 4000 6 4000 false, .next 7, .add 3 20000 7 2000 false, .next 8]

/-- Five more: segments leave the playlist, and then the first period does. -/
def late : List Op := [.add 4 22000 8 4000 false, .next 9, .add 5 26000 9 4000 false, .next 10, .add 6 30000 10 4000 false, .next 11,
  .add 7 34000 11 4000 false, .next 12]

def s1 : Ch × List Seg := (run true early start).get (by decide +kernel)
def s2 : Ch × List Seg := (run true (early ++ late) start).get (by decide +kernel)

theorem s1_reach : Reach true s1.1 s1.2 := get_run _
theorem s2_reach : Reach true s2.1 s2.2 := get_run _
theorem s2_later : Later true s1.1 s1.2 s2.1 s2.2 := run_later late s1 s1 s2 .refl (by decide +kernel)

/-- What a response for a timeline shows. -/
def display (s : Ch) (id max : Nat) : Option (Nat × Nat × List Row × Nat) :=
  match s.tls.find? (·.id = id) with
  | none => none
  | some t => match serve s t 4000 none max with
    | .ok (h, ps) => some (h.seq, h.firstIdx, clientRows h ps, h.target)
    | _ => none

/-- Numbers of the first response (C42, C43). -/
example : display s1.1 1 7 = some (5, 0, [⟨5, 5, 0⟩, ⟨6, 6, 0⟩, ⟨7, 7, 1⟩], 4000) := by decide +kernel

/-- A later response for the same timeline: segments 5 to 7 left, with the first period (C42, C43). -/
example : display s2.1 1 11 = some (8, 1, [⟨8, 8, 1⟩, ⟨9, 9, 1⟩, ⟨10, 10, 1⟩, ⟨11, 11, 1⟩], 4000) := by decide +kernel

/-- The hypotheses of `numbers_stable` and `response_exact` hold for them. -/
example : ∃ t ∈ s1.1.tls, ∃ t' ∈ s2.1.tls, t'.id = t.id ∧ 0 < t.man.segCount ∧ 0 < t'.man.segCount ∧
    (∃ x, serve s1.1 t 4000 none 7 = .ok x ∧ x.2.length = 2) ∧ ∃ x, serve s2.1 t' 4000 none 11 = .ok x ∧ x.2.length = 1 := by decide +kernel

/-- The other timeline has everything, and so has the channel (C47). -/
example : display s2.1 2 11 = some (5, 0, [⟨5, 5, 0⟩, ⟨6, 6, 0⟩, ⟨7, 7, 1⟩, ⟨8, 8, 1⟩, ⟨9, 9, 1⟩, ⟨10, 10, 1⟩, ⟨11, 11, 1⟩], 4000) ∧
    s2.1.minIdx = 5 ∧ (segs s2.1.segs.sl).length = 7 := by decide +kernel

/-- A segment that is pending on the track: its duration is zero (C43). -/
example : (match s2.1.tls.head? with
    | some t => (match serve s2.1 t 4000 (some ⟨true, 0⟩) 12 with
      | .ok (_, ps) => ps.map fun p => p.segs.map (·.dur)
      | _ => [])
    | none => []) = [[4000, 4000, 4000, 4000]] := by decide +kernel

/-- The same with the channel one segment behind. -/
example : (match run true (early ++ late.dropLast) start with
    | some (s, _) => (match s.tls.head? with
      | some t => (match serve s t 4000 (some ⟨true, 0⟩) 11 with
        | .ok (_, ps) => ps.map fun p => p.segs.map (·.dur)
        | _ => [])
      | none => [])
    | none => []) = [[4000, 4000, 4000, 0]] := by decide +kernel

/-! ## Admission (C44) -/

/-- The segments that timelines admit, by their ids. -/
def admits : List Op → Ch → (Nat → List Nat) → Nat → List Nat
  | [], _, A => A
  | op :: ops, s, A => match step s op with
    | .ok s' => admits ops s' (admit s A op)
    | _ => A

/-- A timeline that begins at 3000 and ends at 24000: the middle of the segment decides. -/
def bounded : Op := .create ⟨3000, 24000, -1, 0, 0, true, false⟩ ⟨0, 0, 0, 0⟩ 0

example : admits ([bounded] ++ early ++ late) start.1 (fun _ => []) 1 = [6, 7] := by decide +kernel

example : (match run true ([bounded] ++ early ++ late) start with
    | some (s, _) => display s 1 11
    | none => none) = some (5, 0, [⟨6, 5, 0⟩, ⟨7, 6, 1⟩], 4000) := by decide +kernel

/-! ## The window (C45) -/

/-- The hypotheses of `add_window` hold when segment 8 is added: the playlist has four segments, one leaves. -/
example : let op := Op.add 4 22000 8 4000 false
    Guard true s1.1 s1.2 op ∧ (∀ g ∈ s1.2, g.dur < 2 ^ 30) ∧
    ∃ t ∈ s1.1.tls, t.man.conf.endList = 0 ∧ Admits t (22000 + (4000 / 2 : Nat)) ∧ Of s1.2 ((playlist t).map (·.idx)) s1.2 ∧ Of s1.2 (ids t.periods) s1.2 ∧
      (trim (keepMan t.man.conf t.man.target 0 0) (s1.2 ++ [⟨8, 22000, 4000⟩])).map (·.idx) = [5, 6, 7, 8] ∧
      (trim (keepMan { t.man.conf with maxSegs := 3 } t.man.target 0 0) (s1.2 ++ [⟨8, 22000, 4000⟩])).map (·.idx) = [5, 6, 7, 8] ∧
      (trim (keepMan { t.man.conf with maxSegs := 3 } 3000 0 0) (s1.2 ++ [⟨8, 22000, 4000⟩])).map (·.idx) = [6, 7, 8] := by decide +kernel

/-- `run` from a new channel with a live timeline of at most three segments. -/
def three : List Op := [.create ⟨0, 0, -1, 0, 0, true, false⟩ ⟨0, 3, 0, 0⟩ 0, .add 1 0 5 10000 false, .next 6, .add 2 10000 6 10000 false, .next 7,
  .add 3 20000 7 10000 false, .next 8]

def longer : List Op := three ++ [.add 4 30000 8 11000 false, .next 9]

theorem longer_some : (run true longer start).isSome = true := by decide +kernel

/-- **Finding.** The rule of three target durations uses the target before the segment: with a longer segment the playlist loses its
first segment though it then has less than three target durations (31 seconds, of 11 seconds each), against RFC 8216 section 6.2.2. -/
theorem three_targets_fails : ∃ s H, Reach true s H ∧ ∃ t ∈ s.tls, t.man.conf.endList = 0 ∧ t.man.segCount = 3 ∧ t.man.dur = 31000 ∧
    t.man.target = 11000 ∧ t.man.sequence = 9 :=
  ⟨_, _, get_run longer_some, by decide +kernel⟩

/-! ## The target duration (C46) -/

example : ReachBy NoFixed true s2.1 s2.2 :=
  run_by (early ++ late) start s2 (by decide +kernel) (.init 5 1000 (by decide)) (by decide +kernel)

/-- A timeline whose target is fixed after one segment. -/
def fixed : List Op := [.create ⟨0, 0, -1, 0, 0, true, false⟩ ⟨0, 0, 1, 0⟩ 0, .add 1 0 5 4000 false, .next 6, .add 2 4000 6 9000 false, .next 7]

theorem fixed_some : (run true fixed start).isSome = true := by decide +kernel

/-- **C46** does not hold when the target duration is fixed after some segments: later segments can be longer. -/
theorem target_fixed_fails : ∃ s H, Reach true s H ∧ ∃ t ∈ s.tls, 0 < t.man.segCount ∧ ∃ x, serve s t 4000 none 100 = .ok x ∧
    x.1.target = 4000 ∧ ∃ p ∈ x.2, ∃ g ∈ p.segs, g.dur = 9000 :=
  ⟨_, _, get_run fixed_some, by decide +kernel⟩

/-! ## What is kept (C47) -/

/-- Without the timeline that keeps everything, the channel keeps what the playlist has. -/
example : (match run true ([live] ++ early.drop 2 ++ late) start with
    | some (s, _) => some (s.minIdx, (segs s.segs.sl).map (·.idx), s.tls.map fun t => ids t.periods)
    | none => none) = some (5, [5, 6, 7, 8, 9, 10, 11], [[5, 6, 7, 8, 9, 10, 11]]) := by decide +kernel

/-- With a limit on the timeline, segments leave the channel; the node of the gap is given back. -/
example : (match run true ([.create ⟨0, 0, -1, 0, 4, true, false⟩ ⟨0, 3, 0, 0⟩ 0] ++ early.drop 2 ++ late) start with
    | some (s, _) => some (s.minIdx, (segs s.segs.sl).map (·.idx), s.tls.map fun t => ids t.periods)
    | none => none) = some (8, [7, 8, 9, 10, 11], [[8, 9, 10, 11]]) := by decide +kernel

/-! ## The end of the list (C48) -/

/-- The hypotheses of `end_list_final` hold: the timeline that keeps everything is configured to end, and all is complete. -/
example : ∃ t ∈ s2.1.tls, t.man.conf.endList = 1 ∧ 0 < t.man.segCount ∧ ∃ x, serve s2.1 t 4000 (some ⟨true, 0⟩) 11 = .ok x ∧ x.1.endList = true ∧
    (clientRows x.1 x.2).length = 7 := by decide +kernel

/-- No end while the last segment is pending on the track, or on the channel. -/
example : (match run true (early ++ late.dropLast) start with
    | some (s, _) => s.tls.map fun t => (match serve s t 4000 (some ⟨true, 0⟩) 11 with
      | .ok (h, _) => h.endList
      | _ => true)
    | none => []) = [false, false] := by decide +kernel
example : (match run true (early ++ [.add 4 22000 8 0 false, .next 9]) start with
    | some (s, _) => s.tls.map fun t => (match serve s t 4000 (some ⟨true, 0⟩) 8 with
      | .ok (h, _) => h.endList
      | _ => true)
    | none => []) = [false, false] := by decide +kernel

/-- **Finding.** The end does not bind the timeline: segments are added to it after a response announced the end, as long as it is active. -/
theorem ended_grows : ∃ s H s' H', Reach true s H ∧ Later true s H s' H' ∧ ∃ t ∈ s.tls, ∃ t' ∈ s'.tls, t'.id = t.id ∧
    (∃ x, serve s t 4000 none 7 = .ok x ∧ x.1.endList = true ∧ (clientRows x.1 x.2).length = 3) ∧
    ∃ x, serve s' t' 4000 none 11 = .ok x ∧ (clientRows x.1 x.2).length = 7 :=
  ⟨_, _, _, _, s1_reach, s2_later, by decide +kernel⟩

/-! ## Other findings -/

/-- A timeline whose playlist has no room for a segment of 4 seconds. -/
def tiny : List Op := [.create ⟨0, 0, -1, 3000, 0, true, false⟩ ⟨3000, 0, 0, 1⟩ 0, .add 1 0 5 4000 false, .next 6, .add 2 4000 6 2000 false, .next 7]

theorem tiny_some : (run true tiny start).isSome = true := by decide +kernel

/-- **Finding.** A segment that leaves the playlist at once takes no number, though its period counts: the next segment has the
number that this one would have had, and discontinuity sequence 1. -/
theorem dropped_takes_no_number : ∃ s H, Reach true s H ∧ ∃ t ∈ s.tls, playlist t = [⟨6, 5, 1⟩] :=
  ⟨_, _, get_run tiny_some, by decide +kernel⟩

/-- **Finding.** The parameter `max_segment_index` is compared to the first segment of the timeline, not of the playlist: a response can
have no segment. -/
theorem empty_response : ∃ s H, Reach true s H ∧ ∃ t ∈ s.tls, 0 < t.man.segCount ∧ maxIndex s t none false 6 = .ok 6 ∧
    ∃ x, serve s t 4000 none 6 = .ok x ∧ x.1.perCount = 0 ∧ x.2 = [] :=
  ⟨_, _, s2_reach, by decide +kernel⟩

end Verif.Timeline
