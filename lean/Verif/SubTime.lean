import Verif.Sub
import Verif.SubSpec

/-! # Times of cues read back -/

namespace Verif.Sub

open SubSpec (isDigit value after fixed readTime)

theorem digit_ok : ∀ n, n < 10 → isDigit (UInt8.ofNat (48 + n)) = true ∧ (UInt8.ofNat (48 + n)).toNat - 48 = n := by decide +kernel

theorem value_append (a : Bytes) (c : UInt8) : value (a ++ [c]) = value a * 10 + (c.toNat - 48) := by
  simp [value]

theorem digits_all (k n : Nat) : (digits k n).all isDigit = true := by
  induction k generalizing n with
  | zero => rfl
  | succ k ih =>
    rw [digits]
    split
    · rename_i h; rw [List.all_cons, (digit_ok n h).1]; rfl
    · rw [List.all_append, ih, List.all_cons, (digit_ok (n % 10) (Nat.mod_lt _ (by decide))).1]; rfl

theorem digits_value (k n : Nat) (h : n < 10 ^ k) : value (digits k n) = n := by
  induction k generalizing n with
  | zero => simp at h; subst h; rfl
  | succ k ih =>
    rw [digits]
    split
    · rename_i h; have := (digit_ok n h).2; simpa [value] using this
    · rw [value_append, ih _ (by rw [Nat.pow_succ] at h; omega), (digit_ok (n % 10) (Nat.mod_lt _ (by decide))).2]
      omega

theorem digits_len (k n : Nat) : (digits k n).length ≤ k := by
  induction k generalizing n with
  | zero => simp [digits]
  | succ k ih =>
    rw [digits]
    split
    · simp
    · have := ih (n / 10); simp; omega

theorem value_zeros (k : Nat) (b : Bytes) : value (List.replicate k 48 ++ b) = value b := by
  induction k with
  | zero => simp
  | succ k ih =>
    rw [List.replicate_succ, List.cons_append]
    have : value (48 :: (List.replicate k 48 ++ b)) = value (List.replicate k 48 ++ b) := by simp [value]
    rw [this, ih]

theorem padded_all (w n : Nat) : (padded w n).all isDigit = true := by
  unfold padded
  rw [List.all_append, digits_all]
  simp [List.all_replicate]
  right; decide

theorem padded_value (w n : Nat) (h : n < 2 ^ 32) : value (padded w n) = n := by
  unfold padded
  rw [value_zeros, digits_value _ _ (Nat.lt_of_lt_of_le h (by decide))]

theorem padded_ge (w n : Nat) : w ≤ (padded w n).length := by
  unfold padded; rw [List.length_append, List.length_replicate]; omega

theorem padded_le (w n : Nat) (h : w ≤ 10) : (padded w n).length ≤ 10 := by
  unfold padded; rw [List.length_append, List.length_replicate]; have := digits_len 10 n; omega

theorem padded_two : ∀ n, n < 60 → (padded 2 n).length = 2 := by decide +kernel

theorem padded_three (n : Nat) (h : n < 1000) : (padded 3 n).length = 3 := by
  have : (digits 10 n).length ≤ 3 := by
    rw [digits]
    split
    · simp
    · rw [digits]
      split
      · simp
      · rw [digits]
        split
        · simp
        · omega
  unfold padded
  rw [List.length_append, List.length_replicate]; omega

theorem takeWhile_digits {a : Bytes} (h : a.all isDigit = true) {c : UInt8} (hc : isDigit c = false) (r : Bytes) :
    (a ++ c :: r).takeWhile isDigit = a ∧ (a ++ c :: r).dropWhile isDigit = c :: r := by
  rw [List.all_eq_true] at h
  rw [List.takeWhile_append_of_pos (fun x hx => h x hx), List.dropWhile_append_of_pos (fun x hx => h x hx)]
  rw [List.takeWhile_cons_of_neg (by simp [hc]), List.dropWhile_cons_of_neg (by simp [hc])]
  simp

theorem after_append (p r : Bytes) : after p (p ++ r) = some r := by
  unfold after
  rw [if_pos (by rw [List.isPrefixOf_iff_prefix]; exact List.prefix_append _ _), List.drop_left]

theorem fixed_padded {k w n : Nat} (h : (padded w n).length = k) (hn : n < 2 ^ 32) (r : Bytes) : fixed k (padded w n ++ r) = some (n, r) := by
  unfold fixed
  rw [List.take_left' h, List.drop_left' h, if_pos ⟨h, padded_all _ _⟩, padded_value _ _ hn]

theorem readTime_stamp (time : Int) (timescale : Nat) (h : millis time timescale / 3600000 < 2 ^ 32) (r : Bytes) :
    readTime (stamp time timescale ++ r) = some (millis time timescale, r) := by
  unfold stamp clock
  generalize millis time timescale = t at *
  rw [Nat.mod_eq_of_lt h]
  have hcolon : str ":" = [58] := by decide
  have hdot : str "." = [46] := by decide
  simp only [List.append_assoc]
  unfold readTime
  have e1 : ∀ x : Bytes, str ":" ++ x = 58 :: x := by intro x; rw [hcolon]; rfl
  have hd := takeWhile_digits (padded_all 2 (t / 3600000)) (c := 58) (by decide)
    (padded 2 (t / 60000 % 60) ++ (str ":" ++ (padded 2 (t / 1000 % 60) ++ (str "." ++ (padded 3 (t % 1000) ++ r)))))
  rw [← e1] at hd
  simp only [hd.1, hd.2]
  rw [if_neg (by have := padded_ge 2 (t / 3600000); omega)]
  have s1 : SubSpec.str ":" = str ":" := rfl
  have s2 : SubSpec.str "." = str "." := rfl
  have m1 : t / 60000 % 60 < 60 := Nat.mod_lt _ (by decide)
  have m2 : t / 1000 % 60 < 60 := Nat.mod_lt _ (by decide)
  have m3 : t % 1000 < 1000 := Nat.mod_lt _ (by decide)
  rw [s1, after_append]
  simp only [Option.bind_eq_bind, Option.bind_some]
  rw [fixed_padded (padded_two _ m1) (by omega)]
  simp only [Option.bind_some]
  rw [after_append]
  simp only [Option.bind_some]
  rw [fixed_padded (padded_two _ m2) (by omega)]
  simp only [Option.bind_some]
  rw [s2, after_append]
  simp only [Option.bind_some]
  rw [fixed_padded (padded_three _ m3) (by omega)]
  simp only [Option.bind_some]
  rw [if_pos ⟨m1, m2⟩, padded_value _ _ h]
  congr 2
  omega

theorem stamp_len (time : Int) (timescale : Nat) : (stamp time timescale).length ≤ 20 := by
  unfold stamp clock
  simp only [List.length_append]
  generalize millis time timescale = t
  have m1 : t / 60000 % 60 < 60 := Nat.mod_lt _ (by decide)
  have m2 : t / 1000 % 60 < 60 := Nat.mod_lt _ (by decide)
  have m3 : t % 1000 < 1000 := Nat.mod_lt _ (by decide)
  have h1 : (str ":").length = 1 := by decide
  have h2 : (str ".").length = 1 := by decide
  rw [padded_two _ m1, padded_two _ m2, padded_three _ m3, h1, h2]
  have := padded_le 2 (t / 3600000 % 2 ^ 32) (by decide)
  omega

/-- The bytes of a time: digits, colons and a point. -/
theorem stamp_bytes (time : Int) (timescale : Nat) : ∀ c ∈ stamp time timescale, isDigit c = true ∨ c = 58 ∨ c = 46 := by
  have hp : ∀ w n, ∀ c ∈ padded w n, isDigit c = true := fun w n => by
    have := padded_all w n; rw [List.all_eq_true] at this; exact this
  have hcolon : str ":" = [58] := by decide
  have hdot : str "." = [46] := by decide
  intro c hc
  unfold stamp clock at hc
  simp only [List.mem_append, hcolon, hdot, List.mem_singleton] at hc
  rcases hc with (((((hc | hc) | hc) | hc) | hc) | hc) | hc
  · exact .inl (hp _ _ _ hc)
  · exact .inr (.inl hc)
  · exact .inl (hp _ _ _ hc)
  · exact .inr (.inl hc)
  · exact .inl (hp _ _ _ hc)
  · exact .inr (.inr hc)
  · exact .inl (hp _ _ _ hc)

/-- A time that does not overflow is written to the nearest millisecond. -/
theorem millis_ms {time : Int} {timescale : Nat} (h0 : 0 ≤ time) (h : time * 1000 + timescale / 2 < 2 ^ 64) :
    millis time timescale = SubSpec.ms timescale time := by
  unfold millis SubSpec.ms
  have h1 : time < 2 ^ 64 := by omega
  rw [Int.emod_eq_of_lt h0 h1]
  have : time.toNat * 1000 + timescale / 2 < 2 ^ 64 := by omega
  have h2 : time.toNat * 1000 < 2 ^ 64 := Nat.lt_of_le_of_lt (Nat.le_add_right _ _) this
  rw [Nat.mod_eq_of_lt h2, Nat.mod_eq_of_lt this]

theorem millis_hours {time : Int} {timescale : Nat} (h0 : 0 ≤ time) (h : time * 1000 + timescale / 2 < 2 ^ 53) :
    millis time timescale / 3600000 < 2 ^ 32 := by
  rw [millis_ms h0 (by omega)]
  unfold SubSpec.ms
  have := Nat.div_le_self (time.toNat * 1000 + timescale / 2) timescale
  omega

end Verif.Sub
