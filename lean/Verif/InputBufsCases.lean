import Verif.InputBufsProps

/-!
# Histories of input buffers (C24)

Concrete histories that show that the theorems of `InputBufsProps` are about something, and one that shows the undefined
behaviour that `step_defined` leaves out.
-/

namespace Verif.InputBufs

/-! ## A check of `Allowed` that can be evaluated -/

def find (size : Nat) (o : Obj) (p : Nat) : Option Nat := o.q.used.findIdx? (BufQueue.contains size · p)

/-- `P` of the place of `p`, if it has one. -/
def atAll (size : Nat) (o : Obj) (p : Nat) (P : Nat → Bool) : Bool := match find size o p with
  | none => true
  | some j => P j

def lockOkB (size : Nat) (o : Obj) (seg ptr k : Nat) : Bool :=
  decide (base o ≤ k) && (o.noPartial || match find size o ptr with
    | none => false
    | some i => decide (k = base o + i) &&
      o.locks.all (fun l => atAll size o l.ptr fun j => (!decide (l.seg < seg) || decide (j ≤ i)) &&
        (!decide (seg < l.seg) || decide (i ≤ j))) &&
      (!decide (0 < o.minSeg) || atAll size o o.minPtr fun m => (!decide (seg < o.minSeg) || decide (i ≤ m)) &&
        (!decide (o.minSeg ≤ seg) || decide (m ≤ i))))

def minOkB (size : Nat) (o : Obj) (seg ptr : Nat) : Bool :=
  o.noPartial || !decide (0 < seg) || match find size o ptr with
    | none => false
    | some m => o.locks.all (fun l => atAll size o l.ptr fun i => (!decide (l.seg < seg) || decide (i ≤ m)) &&
        (!decide (seg ≤ l.seg) || decide (m ≤ i)))

def onTrack (w : World) (t : Nat) (P : Obj → Bool) : Bool := match w.track t with
  | none => false
  | some a => match w.heap a with
    | none => false
    | some o => P o

def allowedB (size : Nat) (w : World) : Op → Bool
  | .trackInit t => w.tracks.all (fun p => p.1 != t)
  | .get t _ fresh => (w.track t).isSome && match fresh with
    | none => true
    | some b => !w.held.contains b
  | .lock t seg ptr _ k => onTrack w t (lockOkB size · seg ptr k)
  | .setMinUsed t seg ptr => onTrack w t (minOkB size · seg ptr)
  | .link dst src => dst != src && (w.track dst).isSome && (w.track src).isSome
  | _ => true

theorem of_imp {p q : Prop} [Decidable p] [Decidable q] (h : (!decide p || decide q) = true) : p → q := by
  intro hp; simpa [hp] using h

theorem atAll_spec {size : Nat} {o : Obj} {p : Nat} {P : Nat → Bool} (h : atAll size o p P = true) {j : Nat}
    (hj : At size o.q.used p j) : P j = true := by
  unfold atAll find at h
  rw [show o.q.used.findIdx? _ = some j from hj] at h
  exact h

theorem lockOkB_spec {size : Nat} {o : Obj} {seg ptr k : Nat} (h : lockOkB size o seg ptr k = true) : LockOk size o seg ptr k := by
  unfold lockOkB at h
  rw [Bool.and_eq_true] at h
  refine ⟨by simpa using h.1, fun hn => ?_⟩
  replace h := h.2
  rw [hn, Bool.false_or] at h
  cases hf : find size o ptr with
  | none => rw [hf] at h; exact nomatch h
  | some i =>
    rw [hf] at h
    dsimp only at h
    rw [Bool.and_eq_true, Bool.and_eq_true] at h
    obtain ⟨⟨h1, h2⟩, h3⟩ := h
    refine ⟨i, hf, by simpa using h1, fun l hl j hj => ?_, fun hm m hmm => ?_⟩
    · have := atAll_spec (List.all_eq_true.1 h2 l hl) hj
      rw [Bool.and_eq_true] at this
      exact ⟨of_imp this.1, of_imp this.2⟩
    · rw [decide_eq_true hm, Bool.not_true, Bool.false_or] at h3
      have := atAll_spec h3 hmm
      rw [Bool.and_eq_true] at this
      exact ⟨of_imp this.1, of_imp this.2⟩

theorem minOkB_spec {size : Nat} {o : Obj} {seg ptr : Nat} (h : minOkB size o seg ptr = true) : MinOk size o seg ptr := by
  intro hn hs
  unfold minOkB at h
  rw [hn, decide_eq_true hs, Bool.not_true, Bool.false_or, Bool.false_or] at h
  cases hf : find size o ptr with
  | none => rw [hf] at h; exact nomatch h
  | some m =>
    rw [hf] at h
    refine ⟨m, hf, fun l hl i hi => ?_⟩
    have := atAll_spec (List.all_eq_true.1 h l hl) hi
    rw [Bool.and_eq_true] at this
    exact ⟨of_imp this.1, of_imp this.2⟩

theorem mem_of_track {w : World} {t a : Nat} (h : w.track t = some a) : (t, a) ∈ w.tracks := by
  unfold World.track at h
  obtain ⟨p, hp, rfl⟩ := Option.map_eq_some_iff.1 h
  have h1 := List.mem_of_find?_eq_some hp
  have h2 := List.find?_some hp
  simp only [decide_eq_true_eq] at h2
  rw [← h2]; exact h1

theorem onTrack_spec {w : World} {t : Nat} {P : Obj → Bool} (h : onTrack w t P = true) :
    ∃ a o, (t, a) ∈ w.tracks ∧ w.heap a = some o ∧ P o = true := by
  unfold onTrack at h
  split at h
  · exact nomatch h
  · rename_i a ha
    split at h
    · exact nomatch h
    · rename_i o ho
      exact ⟨a, o, mem_of_track ha, ho, h⟩

theorem allowedB_spec {size : Nat} {w : World} {op : Op} (h : allowedB size w op = true) : Allowed size w op := by
  have isSome : ∀ {t}, (w.track t).isSome = true → ∃ a, (t, a) ∈ w.tracks := by
    intro t ht
    obtain ⟨a, ha⟩ := Option.isSome_iff_exists.1 ht
    exact ⟨a, mem_of_track ha⟩
  cases op with
  | trackInit t =>
    intro p hp
    have := List.all_eq_true.1 h p hp
    simpa using this
  | get t mem fresh =>
    simp only [allowedB, Bool.and_eq_true] at h
    refine ⟨isSome h.1, fun b hb => ?_⟩
    replace h := h.2
    rw [hb] at h
    simpa using h
  | lock t seg ptr alloc k =>
    obtain ⟨a, o, h1, h2, h3⟩ := onTrack_spec h
    exact ⟨a, o, h1, h2, lockOkB_spec h3⟩
  | setMinUsed t seg ptr =>
    obtain ⟨a, o, h1, h2, h3⟩ := onTrack_spec h
    exact ⟨a, o, h1, h2, minOkB_spec h3⟩
  | link dst src =>
    simp only [allowedB, Bool.and_eq_true, bne_iff_ne, ne_eq] at h
    exact ⟨h.1.1, isSome h.1.2, isSome h.2⟩
  | trackFree => trivial
  | channelFree => trivial
  | unlock => trivial

/-- Runs a history. -/
def run (size maxFree : Nat) : World → List Op → Option World
  | w, [] => some w
  | w, op :: ops => if allowedB size w op then match step size maxFree w op with
      | .ok w' => run size maxFree w' ops
      | _ => none
    else none

theorem reach_run {size maxFree : Nat} : ∀ (ops : List Op) {w w' : World}, Reach size maxFree w →
    run size maxFree w ops = some w' → Reach size maxFree w'
  | [], w, w', h, e => by injection e with e; rw [← e]; exact h
  | op :: ops, w, w', h, e => by
    unfold run at e
    split at e
    · rename_i ha
      split at e
      · rename_i w1 hs
        exact reach_run ops (.step op h (allowedB_spec ha) hs) e
      · exact nomatch e
    · exact nomatch e

/-! ## Two readers, trimming, and the end of the track -/

/-- Track 0 receives into three buffers; readers lock the segments 5 (in the first buffer) and 6 (in the second), and a
second reader takes segment 6; the segmenter says that segment 7 (third buffer) is the first in use; the first reader is
done; the track is freed. -/
def h1 : List Op := [.trackInit 0, .get 0 1000 (some 100), .get 0 900 (some 200), .get 0 800 (some 300),
  .lock 0 6 220 true 1, .lock 0 5 120 true 0, .lock 0 6 220 true 1, .setMinUsed 0 7 320]

def held (h : List Op) : Option (List Nat × Nat) := (run 64 2 empty h).map (fun w => (w.held, w.holds.length))
def used (h : List Op) : Option (List Nat) := ((run 64 2 empty h).bind (·.heap 0)).map (·.q.used)

/-- All are kept for the reader of segment 5; when it is done the first buffer goes to the cache; the track can be freed
without effect on the readers of segment 6; when both are done, all is released. -/
example : used h1 = some [100, 200, 300] ∧ used (h1 ++ [.unlock 1]) = some [200, 300] ∧
    used (h1 ++ [.unlock 1, .trackFree 0]) = some [200, 300] ∧
    held (h1 ++ [.unlock 1, .trackFree 0, .unlock 0]) = some ([300, 200, 100], 1) ∧
    used (h1 ++ [.unlock 1, .trackFree 0, .unlock 0, .unlock 0]) = none ∧
    held (h1 ++ [.unlock 1, .trackFree 0, .unlock 0, .unlock 0]) = some ([], 0) := by decide +kernel

/-- `locked_kept` and `all_released` apply to it. -/
example : ∃ w w', Reach 64 2 w ∧ w.holds = [⟨0, 0, 1⟩, ⟨0, 0, 1⟩] ∧ w.tracks = [] ∧ Reach 64 2 w' ∧ w'.tracks = [] ∧
    w'.holds = [] := by
  have e1 : ∃ w, run 64 2 empty (h1 ++ [.unlock 1, .trackFree 0]) = some w ∧ w.holds = [⟨0, 0, 1⟩, ⟨0, 0, 1⟩] ∧ w.tracks = [] :=
    ⟨_, rfl, by decide +kernel, by decide +kernel⟩
  have e2 : ∃ w, run 64 2 empty (h1 ++ [.unlock 1, .trackFree 0, .unlock 0, .unlock 0]) = some w ∧ w.tracks = [] ∧ w.holds = [] :=
    ⟨_, rfl, by decide +kernel, by decide +kernel⟩
  obtain ⟨w, e1, h2, h3⟩ := e1
  obtain ⟨w', e2, h4, h5⟩ := e2
  exact ⟨w, w', reach_run _ .empty e1, h2, h3, reach_run _ .empty e2, h4, h5⟩

/-! ## Finding: a linked track that is freed detaches the buffers of the other -/

/-- Track 1 (a filler) is linked to the buffers of track 0, then track 1 is freed. Track 0 still exists, and receives. -/
def h2 : List Op := [.trackInit 0, .trackInit 1, .get 0 1000 (some 100), .link 1 0, .trackFree 1]

/-- `ngx_live_input_bufs_track_free` (ngx_live_input_bufs.c:570-587) detaches the queue also when the object has other
users; the next buffer for track 0 is then taken from a channel that is NULL, although memory is left. -/
theorem get_after_linked_free : ∃ w, Reach 64 2 w ∧ (0, 0) ∈ w.tracks ∧ Allowed 64 w (.get 0 1000 (some 200)) ∧
    step 64 2 w (.get 0 1000 (some 200)) = .ub := by
  have e1 : ∃ w, run 64 2 empty h2 = some w ∧ (0, 0) ∈ w.tracks ∧ allowedB 64 w (.get 0 1000 (some 200)) = true ∧
      (step 64 2 w (.get 0 1000 (some 200)) matches .ub) = true :=
    ⟨_, rfl, by decide +kernel, by decide +kernel, by decide +kernel⟩
  obtain ⟨w, e, h3, h4, h5⟩ := e1
  refine ⟨w, reach_run _ .empty e, h3, allowedB_spec h4, ?_⟩
  cases hs : step 64 2 w (.get 0 1000 (some 200)) with
  | ub => rfl
  | ok _ => rw [hs] at h5; exact nomatch h5
  | err => rw [hs] at h5; exact nomatch h5

end Verif.InputBufs
