import Verif.BufQueue

/-!
# Properties C04 and C05: buffer queue release and memory accounting
-/

namespace Verif.BufQueue

/-- Reachable worlds: start from an initialised queue, apply steps whose surroundings behave. -/
inductive Reach (allocSize maxFree budget : Nat) : World → Prop where
  | init (q : Q) (h : init allocSize maxFree budget = .ok q) :
      Reach allocSize maxFree budget { q, other := 0, held := [] }
  | step {w w' : World} {op : Op} {r : Option Nat} (h : Reach allocSize maxFree budget w)
      (hok : op.ok w) (hs : step w op = .ok (r, w')) : Reach allocSize maxFree budget w'

/-- Two buffers of the given size do not overlap. -/
def Disjoint (size a b : Nat) : Prop := a + size ≤ b ∨ b + size ≤ a

/-- The invariant. -/
structure Inv (allocSize maxFree budget : Nat) (w : World) : Prop where
  size     : w.q.allocSize = allocSize
  big      : hdr < allocSize
  attached : w.q.attached = true
  perm     : w.held.Perm (w.q.used ++ w.q.free)
  disj     : w.held.Pairwise (Disjoint allocSize)
  count    : w.q.nbuffers = w.q.used.length + w.q.free.length
  cache    : w.q.free.length + w.q.freeLeft = maxFree
  mem      : w.q.memLeft + allocSize * w.q.nbuffers + w.other = budget

theorem disj_symm {size a b : Nat} (h : Disjoint size a b) : Disjoint size b a := by
  unfold Disjoint at *; omega

theorem disj_ne {size a b : Nat} (hs : 0 < size) (h : Disjoint size a b) : a ≠ b := by
  unfold Disjoint at *; omega

theorem nodup_of_disj {size : Nat} (hs : 0 < size) {l : List Nat}
    (h : l.Pairwise (Disjoint size)) : l.Nodup :=
  h.imp (fun hab => disj_ne hs hab)

/-- What the release loop does, with no assumption on the limit: some prefix of the in-use list is
moved to the cache and to the allocator, the rest stays. -/
theorem freeLoop_spec (limit : Nat) : ∀ (l : List Nat) (q : Q),
    q.attached = true → l.length + q.free.length ≤ q.nbuffers →
    let r := freeLoop limit l q
    ∃ pre post, l = pre ++ post ∧ r.1.used = post ∧ r.1.allocSize = q.allocSize ∧
      r.1.attached = true ∧
      (pre ++ q.free).Perm (r.1.free ++ r.2) ∧
      r.1.free.length + r.1.freeLeft = q.free.length + q.freeLeft ∧
      r.1.nbuffers + r.2.length = q.nbuffers ∧
      r.1.memLeft = q.memLeft + q.allocSize * r.2.length ∧
      (∀ c ∈ pre, contains q.allocSize c limit = false) ∧
      (l ≠ [] → post ≠ []) ∧
      (∀ c post', post = c :: post' → post' ≠ [] → contains q.allocSize c limit = true)
  | [], q, ha, _ => by
    exact ⟨[], [], rfl, rfl, rfl, ha, by simp [freeLoop],
      by simp [freeLoop], by simp [freeLoop], by simp [freeLoop], by simp, by simp, by simp⟩
  | [cur], q, ha, _ => by
    refine ⟨[], [cur], rfl, rfl, rfl, ha, by simp [freeLoop], by simp [freeLoop],
      by simp [freeLoop], by simp [freeLoop], by simp, by simp, ?_⟩
    intro c post' h hne
    simp only [List.cons.injEq] at h
    exact absurd h.2.symm hne
  | cur :: next :: rest, q, ha, hn => by
    simp only [freeLoop]
    by_cases hc : contains q.allocSize cur limit = true
    · rw [if_pos hc]
      refine ⟨[], cur :: next :: rest, rfl, rfl, rfl, ha, by simp, by simp, by simp, by simp,
        by simp, by simp, ?_⟩
      intro c post' h _
      simp only [List.cons.injEq] at h
      rw [← h.1]; exact hc
    · rw [if_neg hc]
      have hcf : contains q.allocSize cur limit = false := by simpa using hc
      simp only [List.length_cons] at hn
      by_cases hfl : q.freeLeft ≤ 0
      · have hrel : release q cur =
            ({ q with memLeft := q.memLeft + q.allocSize, nbuffers := q.nbuffers - 1 }, [cur]) := by
          simp only [release, if_pos hfl, if_pos ha]
        rw [hrel]
        obtain ⟨pre, post, h1, h2, h3, h4, h5, h6, h7, h8, h9, h10, h11⟩ :=
          freeLoop_spec limit (next :: rest)
            { q with memLeft := q.memLeft + q.allocSize, nbuffers := q.nbuffers - 1 } ha
            (by simp only [List.length_cons]; omega)
        refine ⟨cur :: pre, post, by rw [h1]; rfl, h2, h3, h4, ?_, h6, ?_, ?_, ?_, ?_, h11⟩
        · simp only [List.cons_append, List.nil_append]
          exact (List.Perm.cons cur h5).trans List.perm_middle.symm
        · simp only [List.length_append, List.length_cons, List.length_nil]
          simp only at h7; omega
        · simp only [List.length_append, List.length_cons, List.length_nil]
          simp only at h8
          rw [h8, Nat.mul_add]; omega
        · intro c hcm
          rcases List.mem_cons.1 hcm with h | h
          · rw [h]; exact hcf
          · exact h9 c h
        · intro _; exact h10 (by simp)
      · have hrel : release q cur =
            ({ q with free := cur :: q.free, freeLeft := q.freeLeft - 1 }, []) := by
          simp only [release, if_neg hfl]
        rw [hrel]
        obtain ⟨pre, post, h1, h2, h3, h4, h5, h6, h7, h8, h9, h10, h11⟩ :=
          freeLoop_spec limit (next :: rest)
            { q with free := cur :: q.free, freeLeft := q.freeLeft - 1 } ha
            (by simp only [List.length_cons]; omega)
        refine ⟨cur :: pre, post, by rw [h1]; rfl, h2, h3, h4, ?_, ?_, ?_, ?_, ?_, ?_, h11⟩
        · simp only [List.nil_append]
          exact (List.perm_middle.symm).trans h5
        · simp only [List.length_cons] at h6; dsimp only at h6 ⊢; omega
        · simpa using h7
        · simpa using h8
        · intro c hcm
          rcases List.mem_cons.1 hcm with h | h
          · rw [h]; exact hcf
          · exact h9 c h
        · intro _; exact h10 (by simp)

theorem perm_filter_removed {held keep gone : List Nat} (hp : held.Perm (keep ++ gone))
    (hn : held.Nodup) : (held.filter (fun a => !gone.contains a)).Perm keep := by
  have h1 := hp.filter (fun a => !gone.contains a)
  refine h1.trans ?_
  have hnd : (keep ++ gone).Nodup := hp.nodup_iff.1 hn
  rw [List.filter_append]
  have hk : keep.filter (fun a => !gone.contains a) = keep := by
    rw [List.filter_eq_self]
    intro a ha
    have := (List.nodup_append.1 hnd).2.2 a ha
    simp only [Bool.not_eq_true', List.contains_eq_mem, decide_eq_false_iff_not]
    intro hg
    exact this a hg rfl
  have hg : gone.filter (fun a => !gone.contains a) = [] := by
    rw [List.filter_eq_nil_iff]
    intro a ha; simp [ha]
  rw [hk, hg, List.append_nil]

theorem inv_init {allocSize maxFree budget : Nat} {q : Q}
    (h : init allocSize maxFree budget = .ok q) :
    Inv allocSize maxFree budget { q, other := 0, held := [] } := by
  unfold init at h
  by_cases hle : allocSize ≤ hdr
  · rw [if_pos hle] at h; cases h
  · rw [if_neg hle] at h
    cases h
    exact ⟨rfl, by omega, rfl, by simp, by simp, by simp, by simp, by simp⟩

theorem free_world {allocSize maxFree budget : Nat} {w : World}
    (h : Inv allocSize maxFree budget w) (limit : Nat) :
    (free w.q limit).2.all (w.held.contains ·) = true ∧
    Inv allocSize maxFree budget
      { w with q := (free w.q limit).1
               held := w.held.filter (fun a => !(free w.q limit).2.contains a) } := by
  obtain ⟨hsize, hbig, hatt, hperm, hdisj, hcount, hcache, hmem⟩ := h
  have hnd := nodup_of_disj (by omega) hdisj
  have hspec : ∃ pre post, w.q.used = pre ++ post ∧ (free w.q limit).1.used = post ∧
      (free w.q limit).1.allocSize = w.q.allocSize ∧ (free w.q limit).1.attached = true ∧
      (pre ++ w.q.free).Perm ((free w.q limit).1.free ++ (free w.q limit).2) ∧
      (free w.q limit).1.free.length + (free w.q limit).1.freeLeft
        = w.q.free.length + w.q.freeLeft ∧
      (free w.q limit).1.nbuffers + (free w.q limit).2.length = w.q.nbuffers ∧
      (free w.q limit).1.memLeft = w.q.memLeft + w.q.allocSize * (free w.q limit).2.length := by
    unfold free
    split
    · next hu =>
      exact ⟨[], [], by simpa using hu, hu, rfl, hatt, by simp, rfl, by simp, by simp⟩
    · next cur rest hu =>
      obtain ⟨pre, post, h1, h2, h3, h4, h5, h6, h7, h8, _⟩ :=
        freeLoop_spec limit (cur :: rest) w.q hatt (by rw [← hu]; omega)
      exact ⟨pre, post, by rw [hu]; exact h1, h2, h3, h4, h5, h6, h7, h8⟩
  generalize free w.q limit = r at hspec ⊢
  obtain ⟨pre, post, h1, h2, h3, h4, h5, h6, h7, h8⟩ := hspec
  have hall : w.held.Perm ((r.1.used ++ r.1.free) ++ r.2) := by
    refine hperm.trans ?_
    rw [h1, h2]
    have e1 : (pre ++ post ++ w.q.free).Perm (post ++ (pre ++ w.q.free)) := by
      rw [← List.append_assoc]
      exact List.perm_append_comm.append_right _
    refine e1.trans ?_
    rw [List.append_assoc]
    exact h5.append_left post
  have hkeep := perm_filter_removed hall hnd
  refine ⟨?_, ?_⟩
  · rw [List.all_eq_true]
    intro a ha
    have : a ∈ w.held := hall.mem_iff.2 (List.mem_append_right _ ha)
    simpa using this
  · have hlen := hall.length_eq
    have hlen2 := hperm.length_eq
    simp only [List.length_append] at hlen hlen2
    refine ⟨by rw [← hsize]; exact h3, hbig, h4, hkeep, hdisj.sublist List.filter_sublist, ?_,
      by rw [← hcache]; exact h6, ?_⟩
    · dsimp only; omega
    · show r.1.memLeft + allocSize * r.1.nbuffers + w.other = budget
      rw [h8, ← hmem, ← h7, hsize, Nat.mul_add]; omega

theorem inv_step {allocSize maxFree budget : Nat} {w w' : World} {op : Op} {r : Option Nat}
    (h : Inv allocSize maxFree budget w) (hok : op.ok w) (hs : step w op = .ok (r, w')) :
    Inv allocSize maxFree budget w' := by
  cases op with
  | get fresh =>
    obtain ⟨hsize, hbig, hatt, hperm, hdisj, hcount, hcache, hmem⟩ := h
    simp only [step, get] at hs
    split at hs
    · next r' q' hg =>
      cases hs
      split at hg
      · next a rest hf =>
        cases hg
        simp only [if_true]
        rw [hf] at hperm hcount hcache
        refine ⟨hsize, hbig, hatt, ?_, hdisj, ?_, ?_, hmem⟩
        · refine hperm.trans ?_
          show (w.q.used ++ a :: rest).Perm (w.q.used ++ [a] ++ rest)
          simp
        · simp only [List.length_append, List.length_cons, List.length_nil] at hcount ⊢; omega
        · simp only [List.length_cons] at hcache; show rest.length + (w.q.freeLeft + 1) = _; omega
      · next hf =>
        have hnf : ¬ (w.q.attached = false) := by rw [hatt]; simp
        rw [if_neg hnf] at hg
        by_cases hm : w.q.memLeft < w.q.allocSize
        · rw [if_pos hm] at hg; cases hg
          simp only [if_true]
          exact ⟨hsize, hbig, hatt, hperm, hdisj, hcount, hcache, hmem⟩
        · rw [if_neg hm] at hg
          cases fresh with
          | none =>
            simp only at hg; cases hg
            simp only [if_true]
            exact ⟨hsize, hbig, hatt, hperm, hdisj, hcount, hcache, hmem⟩
          | some a =>
            simp only at hg; cases hg
            simp only [Nat.succ_ne_self, if_false]
            simp only [Op.ok] at hok
            rw [hf] at hperm
            refine ⟨hsize, hbig, hatt, ?_, ?_, ?_, hcache, ?_⟩
            · show (a :: w.held).Perm (w.q.used ++ [a] ++ w.q.free)
              rw [hf]
              simp only [List.append_nil] at hperm ⊢
              exact (List.Perm.cons a hperm).trans (List.perm_append_comm (l₁ := [a]))
            · rw [List.pairwise_cons]
              exact ⟨fun b hb => by rw [← hsize]; exact hok b hb, hdisj⟩
            · show w.q.nbuffers + 1 = (w.q.used ++ [a]).length + w.q.free.length
              simp only [List.length_append, List.length_cons, List.length_nil]; omega
            · show w.q.memLeft - w.q.allocSize + allocSize * (w.q.nbuffers + 1) + w.other = budget
              rw [Nat.mul_add]; omega
    · cases hs
    · cases hs
  | free limit =>
    obtain ⟨h1, h2⟩ := free_world h limit
    simp only [step, h1, if_true] at hs
    cases hs
    exact h2
  | delete =>
    obtain ⟨hsize, hbig, hatt, hperm, hdisj, hcount, hcache, hmem⟩ := h
    simp only [step, delete, hatt, if_true] at hs
    split at hs
    · cases hs
      have hnil : w.held.filter (fun a => !(w.q.free ++ w.q.used).contains a) = [] := by
        rw [List.filter_eq_nil_iff]
        intro a ha
        have := hperm.mem_iff.1 ha
        simp only [List.contains_eq_mem, List.mem_append, Bool.not_eq_true', decide_eq_false_iff_not]
        intro hn
        rcases List.mem_append.1 this with h | h
        · exact hn (Or.inr h)
        · exact hn (Or.inl h)
      rw [hnil]
      refine ⟨hsize, hbig, rfl, by simp, by simp, by simp, ?_, ?_⟩
      · show ([] : List Nat).length + (w.q.freeLeft + w.q.free.length) = maxFree
        simp only [List.length_nil]; omega
      · show w.q.memLeft + w.q.allocSize * w.q.nbuffers + allocSize * 0 + w.other = budget
        rw [hsize]; omega
    · cases hs
  | envTake n =>
    obtain ⟨hsize, hbig, hatt, hperm, hdisj, hcount, hcache, hmem⟩ := h
    simp only [step] at hs
    cases hs
    simp only [Op.ok] at hok
    refine ⟨hsize, hbig, hatt, hperm, hdisj, hcount, hcache, ?_⟩
    show w.q.memLeft - n + allocSize * w.q.nbuffers + (w.other + n) = budget
    omega
  | envGive n =>
    obtain ⟨hsize, hbig, hatt, hperm, hdisj, hcount, hcache, hmem⟩ := h
    simp only [step] at hs
    cases hs
    simp only [Op.ok] at hok
    refine ⟨hsize, hbig, hatt, hperm, hdisj, hcount, hcache, ?_⟩
    show w.q.memLeft + n + allocSize * w.q.nbuffers + (w.other - n) = budget
    omega

theorem inv_reach {allocSize maxFree budget : Nat} {w : World}
    (h : Reach allocSize maxFree budget w) : Inv allocSize maxFree budget w := by
  induction h with
  | init q h => exact inv_init h
  | step h hok hs ih => exact inv_step ih hok hs

/-! ## C05 -/

/-- C05: in every reachable state, budget left + buffer size × buffers got from the allocator and
not returned + memory of other users = initial budget. `held` counts the allocator's view. -/
theorem memory_conserved {allocSize maxFree budget : Nat} {w : World}
    (h : Reach allocSize maxFree budget w) :
    w.q.memLeft + allocSize * w.held.length + w.other = budget := by
  have hi := inv_reach h
  have := hi.perm.length_eq
  rw [List.length_append, ← hi.count] at this
  rw [this]; exact hi.mem

/-- C05: every held buffer is either in use or cached, never both, never twice, and no two held
buffers overlap; the cache never exceeds its configured size. -/
theorem held_partition {allocSize maxFree budget : Nat} {w : World}
    (h : Reach allocSize maxFree budget w) :
    (∀ a, a ∈ w.held ↔ a ∈ w.q.used ∨ a ∈ w.q.free) ∧
    (w.q.used ++ w.q.free).Nodup ∧
    (w.q.used ++ w.q.free).Pairwise (Disjoint allocSize) ∧
    w.q.free.length ≤ maxFree := by
  have hi := inv_reach h
  have hd : (w.q.used ++ w.q.free).Pairwise (Disjoint allocSize) :=
    (hi.perm.pairwise_iff disj_symm).1 hi.disj
  refine ⟨fun a => by rw [hi.perm.mem_iff, List.mem_append], ?_, hd, ?_⟩
  · exact nodup_of_disj (by have := hi.big; omega) hd
  · have := hi.cache; omega

/-- C05: no step of a well-behaved environment reaches undefined behaviour: nothing is returned to
the allocator twice and the budget pointer is valid. -/
theorem step_safe {allocSize maxFree budget : Nat} {w : World}
    (h : Reach allocSize maxFree budget w) (op : Op) : ∃ r w', step w op = .ok (r, w') := by
  have hi := inv_reach h
  cases op with
  | get fresh =>
    simp only [step, get, hi.attached, Bool.true_eq_false, if_false]
    cases w.q.free with
    | cons a l => exact ⟨_, _, rfl⟩
    | nil =>
      by_cases hm : w.q.memLeft < w.q.allocSize
      · simp only [hm, if_true]; exact ⟨_, _, rfl⟩
      · simp only [hm, if_false]
        cases fresh with
        | none => exact ⟨_, _, rfl⟩
        | some a => exact ⟨_, _, rfl⟩
  | free limit =>
    obtain ⟨h1, _⟩ := free_world hi limit
    simp only [step, h1, if_true]
    exact ⟨_, _, rfl⟩
  | delete =>
    have : (w.q.free ++ w.q.used).all (w.held.contains ·) = true := by
      rw [List.all_eq_true]
      intro a ha
      have : a ∈ w.held := hi.perm.mem_iff.2 (by
        rcases List.mem_append.1 ha with h | h
        · exact List.mem_append_right _ h
        · exact List.mem_append_left _ h)
      simpa using this
    simp only [step, delete, this, if_true]
    exact ⟨_, _, rfl⟩
  | envTake n => exact ⟨_, _, rfl⟩
  | envGive n => exact ⟨_, _, rfl⟩

/-- C05: `get` hands out a buffer that was not in use, keeps the buffers already in use in order,
and fails only when nothing is cached and either the budget is too small or the allocator fails. -/
theorem get_result {allocSize maxFree budget : Nat} {w w' : World} {fresh r : Option Nat}
    (h : Reach allocSize maxFree budget w) (hok : (Op.get fresh).ok w)
    (hs : step w (.get fresh) = .ok (r, w')) :
    (∀ a, r = some a → a ∉ w.q.used ∧ w'.q.used = w.q.used ++ [a]) ∧
    (r = none → w.q.free = [] ∧ (w.q.memLeft < allocSize ∨ fresh = none) ∧ w' = w) := by
  have hi := inv_reach h
  have hi' := inv_step hi hok hs
  have hnd : (w'.q.used ++ w'.q.free).Nodup := (held_partition (h.step hok hs)).2.1
  simp only [step, get] at hs
  split at hs
  · next r' q' hg =>
    cases hs
    split at hg
    · next a rest hf =>
      cases hg
      refine ⟨?_, by intro h; cases h⟩
      intro a' ha'
      cases ha'
      refine ⟨?_, rfl⟩
      have h1 : (w.q.used ++ [a]).Nodup := (List.nodup_append.1 hnd).1
      intro hmem
      exact (List.nodup_append.1 h1).2.2 a hmem a (by simp) rfl
    · next hf =>
      have hnf : ¬ (w.q.attached = false) := by rw [hi.attached]; simp
      rw [if_neg hnf] at hg
      by_cases hm : w.q.memLeft < w.q.allocSize
      · rw [if_pos hm] at hg; cases hg
        exact ⟨(fun a h => nomatch h), fun _ => ⟨hf, Or.inl (hi.size ▸ hm), by simp⟩⟩
      · rw [if_neg hm] at hg
        cases fresh with
        | none =>
          simp only at hg; cases hg
          exact ⟨(fun a h => nomatch h), fun _ => ⟨hf, Or.inr rfl, by simp⟩⟩
        | some a =>
          simp only at hg; cases hg
          refine ⟨?_, by intro h; cases h⟩
          intro a' ha'
          cases ha'
          refine ⟨?_, rfl⟩
          have h1 : (w.q.used ++ [a]).Nodup := (List.nodup_append.1 hnd).1
          intro hmem
          exact (List.nodup_append.1 h1).2.2 a hmem a (by simp) rfl
  · cases hs
  · cases hs

/-- C05: deleting the queue gives its whole memory back. -/
theorem delete_restores {allocSize maxFree budget : Nat} {w w' : World} {r : Option Nat}
    (h : Reach allocSize maxFree budget w) (hs : step w .delete = .ok (r, w')) :
    w'.held = [] ∧ w'.q.memLeft + w'.other = budget := by
  have h' := h.step (op := .delete) trivial hs
  have hp := held_partition h'
  have hheld : w'.held = [] := by
    rw [List.eq_nil_iff_forall_not_mem]
    intro a ha
    have := (hp.1 a).1 ha
    simp only [step, delete] at hs
    have hall : ((w.q.free ++ w.q.used).all (w.held.contains ·)) = true := by
      rw [List.all_eq_true]
      intro b hb
      have : b ∈ w.held := (inv_reach h).perm.mem_iff.2 (by
        rcases List.mem_append.1 hb with h | h
        · exact List.mem_append_right _ h
        · exact List.mem_append_left _ h)
      simpa using this
    simp only [hall, if_true] at hs
    cases hs
    simp at this
  have := memory_conserved h'
  rw [hheld] at this
  exact ⟨hheld, by simpa using this⟩

/-! ## C04 -/

/-- C04: freeing up to a pointer inside an in-use buffer keeps exactly that buffer and the later
ones, in order; every earlier buffer is cached or returned to the allocator. -/
theorem free_exact {allocSize maxFree budget : Nat} {w w' : World} {r : Option Nat}
    (h : Reach allocSize maxFree budget w) (limit : Nat) (pre post : List Nat) (cur : Nat)
    (hused : w.q.used = pre ++ cur :: post)
    (hin : cur + hdr ≤ limit ∧ limit < cur + allocSize)
    (hs : step w (.free limit) = .ok (r, w')) :
    w'.q.used = cur :: post ∧ ∀ a ∈ pre, a ∉ w'.q.used ∧ (a ∈ w'.q.free ∨ a ∉ w'.held) := by
  have hi := inv_reach h
  have hp := held_partition h
  have hp' := held_partition (h.step (op := .free limit) trivial hs)
  have hd : (pre ++ cur :: post).Pairwise (Disjoint allocSize) := by
    rw [← hused]; exact (List.pairwise_append.1 hp.2.2.1).1
  have hused' : w'.q.used = cur :: post := by
    simp only [step] at hs
    split at hs
    · cases hs
      show (free w.q limit).1.used = cur :: post
      have hfree : free w.q limit = freeLoop limit w.q.used w.q := by
        unfold free
        split
        · next hnil => rw [hnil] at hused; simp at hused
        · next c l hl => rw [hl]
      rw [hfree]
      obtain ⟨pre', post', h1, h2, _, _, _, _, _, _, h9, h10, h11⟩ :=
        freeLoop_spec limit w.q.used w.q hi.attached (by have := hi.count; omega)
      rw [h2]
      have hne : post' ≠ [] := h10 (by rw [hused]; simp)
      obtain ⟨c, post'', rfl⟩ := List.exists_cons_of_ne_nil hne
      rw [hused] at h1
      have hcur : contains w.q.allocSize cur limit = true := by
        simp only [contains, hi.size, Bool.and_eq_true, decide_eq_true_eq]; exact hin
      -- compare the two ways to cut the list
      rw [List.append_eq_append_iff] at h1
      rcases h1 with ⟨as, hpre, htail⟩ | ⟨bs, hpre, htail⟩
      · -- pre' = pre ++ as
        cases as with
        | nil =>
          simp only [List.nil_append] at htail
          exact htail.symm
        | cons x xs =>
          simp only [List.cons_append, List.cons.injEq] at htail
          have : x ∈ pre' := by rw [hpre]; simp
          have := h9 x this
          rw [← htail.1, hcur] at this
          cases this
      · -- pre = pre' ++ bs
        cases bs with
        | nil =>
          simp only [List.nil_append] at htail
          exact htail
        | cons x xs =>
          simp only [List.cons_append, List.cons.injEq] at htail
          obtain ⟨rfl, rfl⟩ := htail
          have hc := h11 c (xs ++ cur :: post) rfl (by simp)
          have hdis : Disjoint allocSize c cur := by
            have h2 := (List.pairwise_append.1 hd).2.2
            exact h2 c (by rw [hpre]; simp) cur (by simp)
          simp only [contains, hi.size, Bool.and_eq_true, decide_eq_true_eq] at hc
          unfold Disjoint at hdis
          omega
    · cases hs
  refine ⟨hused', ?_⟩
  intro a ha
  have hnd : (w.q.used ++ w.q.free).Nodup := hp.2.1
  have hnotin : a ∉ w'.q.used := by
    rw [hused']
    have h1 := (List.nodup_append.1 hnd).1
    rw [hused] at h1
    exact fun hm => (List.nodup_append.1 h1).2.2 a ha a hm rfl
  refine ⟨hnotin, ?_⟩
  by_cases hh : a ∈ w'.held
  · rcases (hp'.1 a).1 hh with h | h
    · exact absurd h hnotin
    · exact Or.inl h
  · exact Or.inr hh

/-! ## Concrete cases -/

/-- A queue with three buffers of 100 bytes; freeing up to a pointer in the second one. -/
example :
    let q : Q := { allocSize := 100, used := [1000, 2000, 3000], free := [], freeLeft := 1,
                   nbuffers := 3, memLeft := 0, attached := true }
    free q 2050 = ({ q with used := [2000, 3000], free := [1000], freeLeft := 0 }, []) := by
  decide

/-- A reachable world with two buffers in use. -/
example : Reach 100 1 250
    { q := { allocSize := 100, used := [1000, 2000], free := [], freeLeft := 1, nbuffers := 2,
             memLeft := 50, attached := true }, other := 0, held := [2000, 1000] } := by
  have h0 : Reach 100 1 250 _ := Reach.init _ rfl
  have h1 := h0.step (op := .get (some 1000)) (by intro b hb; simp at hb) rfl
  exact h1.step (op := .get (some 2000)) (by intro b hb; simp at hb; subst hb; right; decide) rfl

/-- After detach, getting a buffer with an empty cache dereferences the NULL budget pointer. -/
example : get (detach { allocSize := 100, used := [], free := [], freeLeft := 1, nbuffers := 0,
                        memLeft := 50, attached := true }) (some 1000) = .ub := by decide

end Verif.BufQueue
