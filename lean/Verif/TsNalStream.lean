import Verif.TsNalSpec

/-!
# The NAL units of a byte stream
-/

namespace Verif.NalSpec

/-- The zeros at the end. -/
def ending (l : List UInt8) : Nat := (l.reverse.takeWhile (· == 0)).length

theorem ending_zero (l : List UInt8) : ending (l ++ [0]) = ending l + 1 := by
  simp [ending]

theorem ending_other (l : List UInt8) {b : UInt8} (hb : b ≠ 0) : ending (l ++ [b]) = 0 := by
  simp [ending, hb]

theorem ending_two {l : List UInt8} (h : 2 ≤ ending l) : ∃ p, l = p ++ [0, 0] := by
  rw [ending] at h
  cases hr : l.reverse with
  | nil => rw [hr] at h; simp at h
  | cons x xs =>
    rw [hr] at h
    cases hxs : xs with
    | nil =>
      rw [hxs] at h
      by_cases hx : x = 0
      · subst hx; simp at h
      · simp [hx] at h
    | cons y ys =>
      rw [hxs] at h hr
      by_cases hx : x = 0
      · by_cases hy : y = 0
        · refine ⟨ys.reverse, ?_⟩
          have := congrArg List.reverse hr
          rw [List.reverse_reverse] at this
          rw [this, hx, hy]
          simp
        · simp [hx, hy] at h
      · simp [hx] at h

theorem ending_last {n : List UInt8} (h : n.getLast? ≠ some 0) : ending n = 0 := by
  rw [ending]
  cases hr : n.reverse with
  | nil => rfl
  | cons x xs =>
    have h1 : n.getLast? = some x := by
      rw [← List.head?_reverse, hr]
      rfl
    have hx : x ≠ 0 := by
      intro hx
      rw [h1, hx] at h
      exact h rfl
    simp [hx]

theorem cut_inside {n : List UInt8} (hn : ¬ [0, 0, 1] <:+: n) (suf pre rest : List UInt8) (h : n = pre ++ suf) :
    cut (ending pre) (some pre) (suf ++ rest) = cut (ending n) (some n) rest := by
  induction suf generalizing pre with
  | nil => rw [h, List.append_nil, List.nil_append]
  | cons b bs ih =>
    have h' : n = (pre ++ [b]) ++ bs := by simp [h]
    rw [List.cons_append, cut]
    by_cases hb : b = 0
    · rw [if_pos hb, ← ih _ h', hb, ending_zero]
      rfl
    · rw [if_neg hb]
      have hc : ending pre < 2 ∨ b ≠ 1 := by
        by_cases h2 : ending pre < 2
        · exact .inl h2
        · refine .inr fun h1 => hn ?_
          obtain ⟨p, hp⟩ := ending_two (show 2 ≤ ending pre by omega)
          exact ⟨p, bs, by rw [h, hp, h1]; simp⟩
      rw [if_pos hc, ← ih _ h', ending_other _ hb]
      rfl

theorem cut_nal {n : List UInt8} (hn : IsNal n) (rest : List UInt8) : cut 0 (some []) (n ++ rest) = cut 0 (some n) rest := by
  have := cut_inside hn.inside n [] rest rfl
  rw [ending_last hn.last] at this
  exact this

theorem cut_zeros (k z : Nat) (cur : Option (List UInt8)) (rest : List UInt8) :
    cut z cur (List.replicate k 0 ++ rest) = cut (z + k) (cur.map (· ++ List.replicate k 0)) rest := by
  induction k generalizing z cur with
  | zero =>
    cases cur <;> simp
  | succ k ih =>
    rw [List.replicate_succ, List.cons_append, cut, if_pos rfl, ih]
    have h1 : z + 1 + k = z + (k + 1) := by omega
    rw [h1]
    congr 1
    cases cur with
    | none => rfl
    | some a => simp [List.append_assoc]

/-- The NAL units of a byte stream are those it was made of. -/
theorem cut_stream (us : List (Nat × List UInt8)) (h : ∀ u ∈ us, IsNal u.2) : cut 0 none (stream us) = us.map Prod.snd := by
  have hsome : ∀ (us : List (Nat × List UInt8)) (n : List UInt8), (∀ u ∈ us, IsNal u.2) → cut 0 (some n) (stream us) = n :: us.map Prod.snd := by
    intro us
    induction us with
    | nil => intro n _; simp [stream, cut]
    | cons u us ih =>
      intro n h
      obtain ⟨z, m⟩ := u
      have hm := h _ (List.mem_cons_self ..)
      rw [stream, List.append_assoc, cut_zeros, List.cons_append, cut, if_neg (by decide), if_neg (by simp), Option.map_some, Option.map_some,
        if_neg (by simp [hm.bytes]), cut_nal hm, ih m (fun u hu => h u (List.mem_cons_of_mem _ hu))]
      simp
  cases us with
  | nil => rfl
  | cons u us =>
    obtain ⟨z, m⟩ := u
    have hm := h _ (List.mem_cons_self ..)
    rw [stream, List.append_assoc, cut_zeros, List.cons_append, cut, if_neg (by decide), if_neg (by simp), Option.map_none, Option.map_none,
      if_neg (by simp [hm.bytes]), cut_nal hm, hsome us m (fun u hu => h u (List.mem_cons_of_mem _ hu))]
    rfl

end Verif.NalSpec
