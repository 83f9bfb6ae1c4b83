import Verif.Rbsp
import Verif.RbspSpec

/-!
# Bit streams: proofs
-/

namespace Verif.Rbsp

open Verif.RbspSpec

/-- The bits that are to come. -/
def left (r : R) : List Bool := bin (r.bit + 1).toNat r.cur.toNat ++ bits r.rest

structure Inv (r : R) : Prop where
  lo : -1 ≤ r.bit
  hi : r.bit ≤ 6

theorem bin_length : ∀ (n v : Nat), (bin n v).length = n
  | 0, _ => rfl
  | n + 1, v => by rw [bin, List.length_cons, bin_length n]

theorem bin_mod : ∀ (n v m : Nat), n ≤ m → bin n (v % 2 ^ m) = bin n v
  | 0, _, _, _ => rfl
  | n + 1, v, m, h => by
    rw [bin, bin, bin_mod n v m (by omega)]
    congr 2
    obtain ⟨j, rfl⟩ : ∃ j, m = n + (j + 1) := ⟨m - n - 1, by omega⟩
    rw [Nat.pow_add, Nat.mod_mul_right_div_self, Nat.pow_succ, Nat.mod_mul_left_mod]

theorem bin_drop (v : Nat) : ∀ (c n : Nat), n ≤ c → (bin c v).drop n = bin (c - n) v
  | c, 0, _ => rfl
  | 0, n + 1, h => by omega
  | c + 1, n + 1, h => by rw [bin, List.drop_succ_cons, bin_drop v c n (by omega), Nat.add_sub_add_right]

theorem bits_cons (x : UInt8) (t : List UInt8) : bits (x :: t) = bin 8 x.toNat ++ bits t := by simp [bits]

theorem bits_length : ∀ (l : List UInt8), (bits l).length = 8 * l.length
  | [] => rfl
  | x :: t => by rw [bits_cons, List.length_append, bin_length, bits_length t, List.length_cons]; omega

theorem bits_drop : ∀ (n : Nat) (l : List UInt8), (bits l).drop (8 * n) = bits (l.drop n)
  | 0, l => rfl
  | n + 1, [] => by simp [bits]
  | n + 1, x :: t => by
    rw [bits_cons, List.drop_append, List.drop_of_length_le (by rw [bin_length]; omega), List.nil_append, bin_length, show 8 * (n + 1) - 8 = 8 * n by omega, bits_drop n t, List.drop_succ_cons]

theorem left_length {r : R} (h : Inv r) : (left r).length = (r.bit + 1).toNat + 8 * r.rest.length := by rw [left, List.length_append, bin_length, bits_length]

theorem rest_length {r : R} (h : Inv r) : r.rest.length = (left r).length / 8 := by
  have h1 := h.lo
  have h2 := h.hi
  rw [left_length h]
  omega

/-! ## One bit -/

theorem one_eof {r : R} (h : r.eof = true) : r.one.2.eof = true := by
  unfold R.one R.fill R.byte
  simp only []
  split
  · split <;> simp [h]
  · exact h

theorem one_inv {r : R} (h : Inv r) : Inv r.one.2 := by
  have h1 := h.lo
  have h2 := h.hi
  unfold R.one R.fill
  by_cases hb : r.bit < 0
  · simp only [if_pos hb]
    exact ⟨by simp, by simp⟩
  · simp only [if_neg hb]
    exact ⟨by simp only []; omega, by simp only []; omega⟩

theorem one_spec {r : R} (h : Inv r) {b : Bool} {t : List Bool} (hl : left r = b :: t) : r.one.1 = b ∧ left r.one.2 = t ∧ r.one.2.eof = r.eof := by
  have h1 := h.lo
  unfold left at hl
  unfold R.one R.fill
  by_cases hb : r.bit < 0
  · have hm : (r.bit + 1).toNat = 0 := by omega
    rw [hm, bin, List.nil_append] at hl
    cases hr : r.rest with
    | nil => rw [hr] at hl; cases hl
    | cons x s =>
      rw [hr, bits_cons, bin, List.cons_append, List.cons.injEq] at hl
      simp only [if_pos hb, R.byte, hr]
      refine ⟨?_, ?_, by trivial⟩
      · rw [← hl.1, Nat.testBit_eq_decide_div_mod_eq]
        rfl
      · unfold left
        exact hl.2
  · simp only [if_neg hb]
    obtain ⟨m, hm⟩ : ∃ m : Nat, r.bit = m := ⟨r.bit.toNat, by omega⟩
    rw [hm, show ((m : Int) + 1).toNat = m + 1 by omega, bin, List.cons_append, List.cons.injEq] at hl
    refine ⟨?_, ?_, by trivial⟩
    · rw [← hl.1, Nat.testBit_eq_decide_div_mod_eq, hm]
      rfl
    · unfold left
      simp only []
      rw [hm, show ((m : Int) - 1 + 1).toNat = m by omega]
      exact hl.2

theorem one_short {r : R} (h : Inv r) (hl : left r = []) : r.one.1 = false ∧ r.one.2.eof = true := by
  have hlen := left_length h
  have h1 := h.lo
  rw [hl, List.length_nil] at hlen
  have hb : r.bit < 0 := by omega
  have hr : r.rest = [] := List.eq_nil_of_length_eq_zero (by omega)
  unfold R.one R.fill
  simp only [if_pos hb, R.byte, hr]
  exact ⟨by simp, by trivial⟩

/-! ## Numbers -/

theorem get_spec : ∀ (n acc v : Nat) (r : R) (t : List Bool), Inv r → v < 2 ^ n → acc * 2 ^ n + v < 2 ^ 31 → left r = bin n v ++ t →
    ∃ r', R.get n acc r = .ok (acc * 2 ^ n + v, r') ∧ left r' = t ∧ r'.eof = r.eof ∧ Inv r'
  | 0, acc, v, r, t, h, hv, _, hl => ⟨r, by
      have : v = 0 := by simpa using hv
      subst this
      rw [R.get, Nat.pow_zero, Nat.mul_one, Nat.add_zero], hl, rfl, h⟩
  | n + 1, acc, v, r, t, h, hv, ha, hl => by
    rw [bin, List.cons_append] at hl
    obtain ⟨o1, o2, o3⟩ := one_spec h hl
    have hq : v / 2 ^ n < 2 := Nat.div_lt_of_lt_mul (by rw [Nat.pow_succ] at hv; exact hv)
    have hb : r.one.1.toNat = v / 2 ^ n := by
      rw [o1, Nat.mod_eq_of_lt hq]
      generalize v / 2 ^ n = q at hq
      rcases (show q = 0 ∨ q = 1 by omega) with e | e <;> rw [e] <;> rfl
    have hv2 := Nat.div_add_mod v (2 ^ n)
    have hval : (2 * acc + v / 2 ^ n) * 2 ^ n + v % 2 ^ n = acc * 2 ^ (n + 1) + v := by
      rw [Nat.add_mul, Nat.pow_succ, Nat.mul_comm 2 acc, Nat.mul_assoc, Nat.mul_comm 2 (2 ^ n), Nat.mul_comm (v / 2 ^ n)]
      omega
    have hpos : 0 < 2 ^ n := Nat.pow_pos (by omega)
    have hacc : 2 * acc + v / 2 ^ n < 2 ^ 31 := by
      have := Nat.le_mul_of_pos_right (2 * acc + v / 2 ^ n) hpos
      omega
    rw [R.get, hb, if_neg (by omega)]
    obtain ⟨r', e1, e2, e3, e4⟩ := get_spec n (2 * acc + v / 2 ^ n) (v % 2 ^ n) r.one.2 t (one_inv h) (Nat.mod_lt _ hpos) (by rw [hval]; exact ha) (by rw [o2, bin_mod n v n (Nat.le_refl _)])
    exact ⟨r', by rw [e1, hval], e2, by rw [e3, o3], e4⟩

/-- Whatever comes, there is no overflow. -/
theorem get_total : ∀ (n acc : Nat) (r : R), Inv r → (acc + 1) * 2 ^ n ≤ 2 ^ 31 → ∃ x, R.get n acc r = .ok x ∧ Inv x.2 ∧ (r.eof = true → x.2.eof = true)
  | 0, acc, r, h, _ => ⟨_, rfl, h, id⟩
  | n + 1, acc, r, h, ha => by
    have hb : r.one.1.toNat ≤ 1 := by cases r.one.1 <;> decide
    have hle : (2 * acc + r.one.1.toNat + 1) * 2 ^ n ≤ 2 ^ 31 := by
      refine Nat.le_trans (Nat.mul_le_mul_right _ (show 2 * acc + r.one.1.toNat + 1 ≤ (acc + 1) * 2 by omega)) ?_
      rw [Nat.mul_assoc, Nat.mul_comm 2, ← Nat.pow_succ]
      exact ha
    have hpos : 0 < 2 ^ n := Nat.pow_pos (by omega)
    have := Nat.le_mul_of_pos_right (2 * acc + r.one.1.toNat + 1) hpos
    rw [R.get, if_neg (by omega)]
    obtain ⟨x, e1, e2, e3⟩ := get_total n _ r.one.2 (one_inv h) hle
    exact ⟨x, e1, e2, fun he => e3 (one_eof he)⟩

theorem get_short : ∀ (n acc : Nat) (r : R), Inv r → (acc + 1) * 2 ^ n ≤ 2 ^ 31 → (left r).length < n → ∃ x, R.get n acc r = .ok x ∧ Inv x.2 ∧ x.2.eof = true
  | 0, _, _, _, _, hl => by omega
  | n + 1, acc, r, h, ha, hl => by
    have hb : r.one.1.toNat ≤ 1 := by cases r.one.1 <;> decide
    have hle : (2 * acc + r.one.1.toNat + 1) * 2 ^ n ≤ 2 ^ 31 := by
      refine Nat.le_trans (Nat.mul_le_mul_right _ (show 2 * acc + r.one.1.toNat + 1 ≤ (acc + 1) * 2 by omega)) ?_
      rw [Nat.mul_assoc, Nat.mul_comm 2, ← Nat.pow_succ]
      exact ha
    have hpos : 0 < 2 ^ n := Nat.pow_pos (by omega)
    have := Nat.le_mul_of_pos_right (2 * acc + r.one.1.toNat + 1) hpos
    rw [R.get, if_neg (by omega)]
    cases hq : left r with
    | nil =>
      obtain ⟨x, e1, e2, e3⟩ := get_total n _ r.one.2 (one_inv h) hle
      exact ⟨x, e1, e2, e3 (one_short h hq).2⟩
    | cons b t =>
      obtain ⟨-, o2, -⟩ := one_spec h hq
      rw [hq, List.length_cons] at hl
      exact get_short n _ r.one.2 (one_inv h) hle (by rw [o2]; omega)

/-! ## Skips -/

theorem s8_id {x : Int} (h1 : -128 ≤ x) (h2 : x ≤ 127) : s8 x = x := by unfold s8; omega

theorem skip_inv {r : R} (h : Inv r) {n : Nat} (hn : n ≤ 128) : Inv (r.skip n) := by
  have h1 := h.lo
  have h2 := h.hi
  unfold R.skip
  rw [s8_id (x := r.bit - (n - 1)) (by omega) (by omega)]
  split
  · rw [s8_id (by omega) (by omega)]
    exact ⟨by simp only []; omega, by simp only []; omega⟩
  · exact ⟨by simp only []; omega, by simp only []; omega⟩

theorem byte_eof {r : R} (h : r.eof = true) : r.byte.eof = true := by
  unfold R.byte
  split <;> simp [h]

theorem skip_eof {r : R} (h : r.eof = true) (n : Nat) : (r.skip n).eof = true := by
  unfold R.skip
  split
  · simp only []
    apply byte_eof
    unfold R.skipBytes
    split <;> simp [h]
  · exact h

theorem skip_spec {r : R} (h : Inv r) {n : Nat} (hn : n ≤ 128) (hl : n ≤ (left r).length) : left (r.skip n) = (left r).drop n ∧ (r.skip n).eof = r.eof := by
  have h1 := h.lo
  have h2 := h.hi
  have hlen := left_length h
  unfold R.skip
  rw [s8_id (x := r.bit - (n - 1)) (by omega) (by omega)]
  obtain ⟨c, hc⟩ : ∃ c : Nat, r.bit = (c : Int) - 1 := ⟨(r.bit + 1).toNat, by omega⟩
  have hct : (r.bit + 1).toNat = c := by omega
  rw [hct] at hlen
  by_cases hx : r.bit - (n - 1) < 0
  · rw [if_pos hx, s8_id (by omega) (by omega)]
    obtain ⟨s, hs⟩ : ∃ s : Nat, (-(r.bit - ((n : Int) - 1)) + 7) / 8 - 1 = s := ⟨((-(r.bit - ((n : Int) - 1)) + 7) / 8 - 1).toNat, by omega⟩
    have hsl : s < r.rest.length := by omega
    have hnd : n - c = 8 * s + (n - c - 8 * s) := by omega
    rw [hs, Int.toNat_natCast]
    unfold R.skipBytes
    rw [if_neg (by omega)]
    cases hd : r.rest.drop s with
    | nil =>
      have := congrArg List.length hd
      rw [List.length_drop, List.length_nil] at this
      omega
    | cons y t =>
      have e : ({ r with rest := y :: t } : R).byte = { r with cur := y, rest := t } := rfl
      rw [e]
      refine ⟨?_, rfl⟩
      unfold left
      simp only []
      rw [hct, List.drop_append, List.drop_of_length_le (by rw [bin_length]; omega), List.nil_append, bin_length, hnd, ← List.drop_drop, bits_drop, hd, bits_cons,
        List.drop_append_of_le_length (by rw [bin_length]; omega), bin_drop _ _ _ (by omega)]
      congr 2
      omega
  · rw [if_neg hx]
    refine ⟨?_, rfl⟩
    unfold left
    simp only []
    rw [hct, List.drop_append_of_le_length (by rw [bin_length]; omega), bin_drop _ _ _ (by omega)]
    congr 2
    omega

theorem skip_short {r : R} (h : Inv r) {n : Nat} (hn : n ≤ 128) (hl : (left r).length < n) : (r.skip n).eof = true := by
  have h1 := h.lo
  have h2 := h.hi
  have hlen := left_length h
  unfold R.skip
  rw [s8_id (x := r.bit - (n - 1)) (by omega) (by omega), if_pos (by omega)]
  obtain ⟨s, hs⟩ : ∃ s : Nat, (-(r.bit - ((n : Int) - 1)) + 7) / 8 - 1 = s := ⟨((-(r.bit - ((n : Int) - 1)) + 7) / 8 - 1).toNat, by omega⟩
  rw [hs, Int.toNat_natCast]
  simp only []
  unfold R.skipBytes
  by_cases hg : s > r.rest.length
  · rw [if_pos hg]
    exact byte_eof rfl
  · rw [if_neg hg, List.drop_of_length_le (by omega)]
    rfl

/-! ## Exp-Golomb -/

theorem zeros_spec : ∀ (k f z : Nat) (r : R) (t : List Bool), Inv r → r.eof = false → k < f → left r = List.replicate k false ++ true :: t →
    ∃ r', R.zeros f z r = .ok (z + k, r') ∧ left r' = t ∧ r'.eof = false ∧ Inv r'
  | 0, f, z, r, t, h, he, hf, hl => by
    obtain ⟨o1, o2, o3⟩ := one_spec h hl
    obtain ⟨f, rfl⟩ : ∃ g, f = g + 1 := ⟨f - 1, by omega⟩
    exact ⟨_, by rw [R.zeros, o1, if_neg (by simp)]; rfl, o2, by rw [o3, he], one_inv h⟩
  | k + 1, f, z, r, t, h, he, hf, hl => by
    obtain ⟨f, rfl⟩ : ∃ g, f = g + 1 := ⟨f - 1, by omega⟩
    rw [List.replicate_succ, List.cons_append] at hl
    obtain ⟨o1, o2, o3⟩ := one_spec h hl
    obtain ⟨r', e1, e2, e3, e4⟩ := zeros_spec k f (z + 1) r.one.2 t (one_inv h) (by rw [o3, he]) (by omega) o2
    exact ⟨r', by rw [R.zeros, if_pos ⟨o1, by rw [o3, he]⟩, e1, show z + 1 + k = z + (k + 1) by omega], e2, e3, e4⟩

theorem zeros_short : ∀ (k f z : Nat) (r : R), Inv r → r.eof = false → k < f → left r = List.replicate k false → ∃ r', R.zeros f z r = .ok (z + k, r') ∧ r'.eof = true ∧ Inv r'
  | 0, f, z, r, h, he, hf, hl => by
    obtain ⟨o1, o2⟩ := one_short h hl
    obtain ⟨f, rfl⟩ : ∃ g, f = g + 1 := ⟨f - 1, by omega⟩
    exact ⟨_, by rw [R.zeros, if_neg (by simp [o2])]; rfl, o2, one_inv h⟩
  | k + 1, f, z, r, h, he, hf, hl => by
    obtain ⟨f, rfl⟩ : ∃ g, f = g + 1 := ⟨f - 1, by omega⟩
    rw [List.replicate_succ] at hl
    obtain ⟨o1, o2, o3⟩ := one_spec h hl
    obtain ⟨r', e1, e2, e3⟩ := zeros_short k f (z + 1) r.one.2 (one_inv h) (by rw [o3, he]) (by omega) o2
    exact ⟨r', by rw [R.zeros, if_pos ⟨o1, by rw [o3, he]⟩, e1, show z + 1 + k = z + (k + 1) by omega], e2, e3⟩

theorem zeros_eof {r : R} (h : Inv r) (he : r.eof = true) {f : Nat} (hf : 0 < f) : ∃ r', R.zeros f 0 r = .ok (0, r') ∧ r'.eof = true ∧ Inv r' := by
  obtain ⟨f, rfl⟩ : ∃ g, f = g + 1 := ⟨f - 1, by omega⟩
  exact ⟨_, by rw [R.zeros, if_neg (by simp [one_eof he])], one_eof he, one_inv h⟩

theorem fuel_enough {r : R} (h : Inv r) : (left r).length < r.fuel := by
  have h2 := h.hi
  rw [left_length h]
  unfold R.fuel
  omega

theorem golomb_form {v : Nat} {l : List Bool} (h : Golomb v l) : ∃ k, l = List.replicate k false ++ true :: bin k (v + 1 - 2 ^ k) ∧ 2 ^ k ≤ v + 1 ∧ v + 1 < 2 ^ (k + 1) := by
  cases h with
  | @mk k h1 h2 =>
    refine ⟨k, ?_, h1, h2⟩
    have hq : (v + 1) / 2 ^ k = 1 := by
      apply Nat.div_eq_of_lt_le
      · rw [Nat.one_mul]; exact h1
      · rw [Nat.pow_succ] at h2; omega
    rw [bin, hq]
    congr 2
    rw [← bin_mod k (v + 1) k (Nat.le_refl _), ← bin_mod k (v + 1 - 2 ^ k) k (Nat.le_refl _)]
    congr 1
    rw [Nat.mod_eq_sub_mod h1]

theorem ue_spec {r : R} (h : Inv r) (he : r.eof = false) {v : Nat} {l t : List Bool} (hg : Golomb v l) (hv : v + 1 < 2 ^ 31) (hl : left r = l ++ t) :
    ∃ r', r.ue = .ok (v, r') ∧ left r' = t ∧ r'.eof = false ∧ Inv r' := by
  obtain ⟨k, rfl, h1, h2⟩ := golomb_form hg
  have hk : k ≤ 30 := by
    rcases Nat.lt_or_ge 30 k with hh | hh
    · have := Nat.pow_le_pow_right (n := 2) (by omega) (show 31 ≤ k from hh)
      omega
    · exact hh
  have hf := fuel_enough h
  rw [hl] at hf
  simp only [List.length_append, List.length_replicate, List.length_cons] at hf
  rw [List.append_assoc, List.cons_append] at hl
  obtain ⟨r1, z1, z2, z3, z4⟩ := zeros_spec k r.fuel 0 r _ h he (by omega) hl
  rw [Nat.zero_add] at z1
  have hlt : v + 1 - 2 ^ k < 2 ^ k := by rw [Nat.pow_succ] at h2; omega
  obtain ⟨r2, g1, g2, g3, g4⟩ := get_spec k 0 (v + 1 - 2 ^ k) r1 t z4 hlt (by omega) z2
  refine ⟨r2, ?_, g2, by rw [g3, z3], g4⟩
  unfold R.ue
  rw [z1, Res.bind_ok]
  simp only []
  rw [if_neg (by omega), g1, Res.map_ok, Nat.zero_mul, Nat.zero_add]
  congr 2
  have : 0 < 2 ^ k := Nat.pow_pos (by omega)
  omega

theorem skipUe_spec {r : R} (h : Inv r) (he : r.eof = false) {v : Nat} {l t : List Bool} (hg : Golomb v l) (hv : v + 1 < 2 ^ 129) (hl : left r = l ++ t) :
    ∃ r', r.skipUe = .ok r' ∧ left r' = t ∧ r'.eof = false ∧ Inv r' := by
  obtain ⟨k, rfl, h1, h2⟩ := golomb_form hg
  have hk : k ≤ 128 := by
    rcases Nat.lt_or_ge 128 k with hh | hh
    · have := Nat.pow_le_pow_right (n := 2) (by omega) (show 129 ≤ k from hh)
      omega
    · exact hh
  have hf := fuel_enough h
  rw [hl] at hf
  simp only [List.length_append, List.length_replicate, List.length_cons] at hf
  rw [List.append_assoc, List.cons_append] at hl
  obtain ⟨r1, z1, z2, z3, z4⟩ := zeros_spec k r.fuel 0 r _ h he (by omega) hl
  rw [Nat.zero_add] at z1
  obtain ⟨s1, s2⟩ := skip_spec z4 hk (by rw [z2, List.length_append, bin_length]; omega)
  refine ⟨r1.skip k, ?_, ?_, by rw [s2, z3], skip_inv z4 hk⟩
  · unfold R.skipUe
    rw [z1, Res.map_ok]
  · rw [s1, z2, List.drop_append_of_le_length (by rw [bin_length]; omega), List.drop_of_length_le (by rw [bin_length]; omega), List.nil_append]

/-- The bits end within a code, or ended before. -/
theorem zeros_cut {r : R} (h : Inv r) {k : Nat} {w s : List Bool} (hc : r.eof = true ∨ r.eof = false ∧ s ≠ [] ∧ left r ++ s = List.replicate k false ++ true :: w) :
    ∃ j r', R.zeros r.fuel 0 r = .ok (j, r') ∧ j ≤ k ∧ Inv r' ∧ (r'.eof = true ∨ j = k ∧ (left r').length < w.length) := by
  rcases hc with he | ⟨he, hs, hl⟩
  · obtain ⟨r', e1, e2, e3⟩ := zeros_eof h he (f := r.fuel) (by unfold R.fuel; omega)
    exact ⟨0, r', e1, by omega, e3, Or.inl e2⟩
  · have hf := fuel_enough h
    by_cases hk : (left r).length ≤ k
    · have hr : left r = List.replicate (left r).length false := by
        have := congrArg (List.take (left r).length) hl
        rw [List.take_append_of_le_length (Nat.le_refl _), List.take_length, List.take_append_of_le_length (by rw [List.length_replicate]; exact hk), List.take_replicate, Nat.min_eq_left hk] at this
        exact this
      obtain ⟨r', e1, e2, e3⟩ := zeros_short _ r.fuel 0 r h he hf hr
      exact ⟨_, r', e1, by omega, e3, Or.inl e2⟩
    · have hr : left r = List.replicate k false ++ true :: (left r).drop (k + 1) := by
        have := congrArg (List.take (k + 1)) hl
        rw [List.take_append_of_le_length (by omega), List.take_append, List.length_replicate, List.take_of_length_le (l := List.replicate k false) (by rw [List.length_replicate]; omega), Nat.add_sub_cancel_left, List.take_succ_cons,
          List.take_zero] at this
        conv => lhs; rw [← List.take_append_drop (k + 1) (left r), this]
        rw [List.append_assoc]
        rfl
      obtain ⟨r', e1, e2, e3, e4⟩ := zeros_spec k r.fuel 0 r _ h he (by omega) hr
      refine ⟨_, r', e1, by omega, e4, Or.inr ⟨by omega, ?_⟩⟩
      have hll := congrArg List.length hl
      rw [List.length_append, List.length_append, List.length_replicate, List.length_cons] at hll
      have := List.length_pos_iff.2 hs
      rw [e2, List.length_drop]
      omega

/-! ## Items -/

/-- What is done with an element, and what comes of it. -/
inductive Reads : Op → Elem → Option Int → Prop
  | get {n v : Nat} : n ≤ 31 → Reads (.get n) (.u n v) (some v)
  | skip {n v : Nat} : n ≤ 128 → Reads (.skip n) (.u n v) none
  | ue {v : Nat} : v + 1 < 2 ^ 31 → Reads .ue (.ue v) (some v)
  | se {v : Int} : zig v + 1 < 2 ^ 31 → Reads .se (.se v) (some v)
  | skipUe {v : Nat} : v + 1 < 2 ^ 31 → Reads .skipUe (.ue v) none
  | skipSe {v : Int} : zig v + 1 < 2 ^ 31 → Reads .skipUe (.se v) none

inductive ReadsAll : List Op → List Elem → List (Option Int) → Prop
  | nil : ReadsAll [] [] []
  | cons {o : Op} {e : Elem} {v : Option Int} {os : List Op} {es : List Elem} {vs : List (Option Int)} : Reads o e v → ReadsAll os es vs → ReadsAll (o :: os) (e :: es) (v :: vs)

theorem unzig (v : Int) : (if 0 < zig v then if zig v % 2 = 1 then ((zig v : Int) + 1) / 2 else -((zig v : Int) / 2) else (zig v : Int)) = v := by
  unfold zig
  by_cases h : 0 < v
  · rw [if_pos h, if_pos (by omega), if_pos (by omega)]
    omega
  · rw [if_neg h]
    by_cases h0 : v = 0
    · subst h0; rfl
    · rw [if_pos (by omega), if_neg (by omega)]
      omega

theorem op_spec {r : R} (h : Inv r) (he : r.eof = false) {o : Op} {e : Elem} {v : Option Int} {l t : List Bool} (hr : Reads o e v) (hc : Code e l) (hl : left r = l ++ t) :
    ∃ r', o.run r = .ok (v, r') ∧ left r' = t ∧ r'.eof = false ∧ Inv r' := by
  cases hr with
  | @get n v hn =>
    cases hc with
    | u hv =>
      have hp := Nat.pow_le_pow_right (n := 2) (by omega) hn
      obtain ⟨r', e1, e2, e3, e4⟩ := get_spec n 0 v r t h hv (by omega) hl
      exact ⟨r', by rw [Op.run, e1, Res.map_ok, Nat.zero_mul, Nat.zero_add], e2, by rw [e3, he], e4⟩
  | @skip n v hn =>
    cases hc with
    | u hv =>
      obtain ⟨s1, s2⟩ := skip_spec h hn (by rw [hl, List.length_append, bin_length]; omega)
      refine ⟨r.skip n, rfl, ?_, by rw [s2, he], skip_inv h hn⟩
      rw [s1, hl, List.drop_append_of_le_length (by rw [bin_length]; omega), List.drop_of_length_le (by rw [bin_length]; omega), List.nil_append]
  | ue hv =>
    cases hc with
    | ue hg =>
      obtain ⟨r', e1, e2, e3, e4⟩ := ue_spec h he hg hv hl
      exact ⟨r', by rw [Op.run, e1, Res.map_ok], e2, e3, e4⟩
  | @se v hv =>
    cases hc with
    | se hg =>
      obtain ⟨r', e1, e2, e3, e4⟩ := ue_spec h he hg hv hl
      refine ⟨r', ?_, e2, e3, e4⟩
      rw [Op.run, R.se, e1, Res.map_ok, Res.map_ok]
      simp only [unzig]
  | skipUe hv =>
    cases hc with
    | ue hg =>
      obtain ⟨r', e1, e2, e3, e4⟩ := skipUe_spec h he hg (by omega) hl
      exact ⟨r', by rw [Op.run, e1, Res.map_ok], e2, e3, e4⟩
  | skipSe hv =>
    cases hc with
    | se hg =>
      obtain ⟨r', e1, e2, e3, e4⟩ := skipUe_spec h he hg (by omega) hl
      exact ⟨r', by rw [Op.run, e1, Res.map_ok], e2, e3, e4⟩

theorem golomb_cut {r : R} (h : Inv r) {v : Nat} {l s : List Bool} (hg : Golomb v l) (hv : v + 1 < 2 ^ 31) (hc : r.eof = true ∨ r.eof = false ∧ s ≠ [] ∧ left r ++ s = l) :
    (∃ x, r.ue = .ok x ∧ x.2.eof = true ∧ Inv x.2) ∧ ∃ r', r.skipUe = .ok r' ∧ r'.eof = true ∧ Inv r' := by
  obtain ⟨k, rfl, h1, h2⟩ := golomb_form hg
  have hk : k ≤ 30 := by
    rcases Nat.lt_or_ge 30 k with hh | hh
    · have := Nat.pow_le_pow_right (n := 2) (by omega) (show 31 ≤ k from hh)
      omega
    · exact hh
  obtain ⟨j, r1, z1, z2, z3, z4⟩ := zeros_cut h hc
  have hp : (0 + 1) * 2 ^ j ≤ 2 ^ 31 := by
    have := Nat.pow_le_pow_right (n := 2) (by omega) (show j ≤ 31 by omega)
    omega
  constructor
  · have : ∃ x, R.get j 0 r1 = .ok x ∧ Inv x.2 ∧ x.2.eof = true := by
      rcases z4 with z4 | ⟨rfl, z4⟩
      · obtain ⟨x, e1, e2, e3⟩ := get_total j 0 r1 z3 hp
        exact ⟨x, e1, e2, e3 z4⟩
      · exact get_short j 0 r1 z3 hp (by rw [bin_length] at z4; exact z4)
    obtain ⟨x, e1, e2, e3⟩ := this
    refine ⟨(2 ^ j - 1 + x.1, x.2), ?_, e3, e2⟩
    unfold R.ue
    rw [z1, Res.bind_ok]
    simp only []
    rw [if_neg (by omega), e1, Res.map_ok]
  · refine ⟨r1.skip j, by rw [R.skipUe, z1, Res.map_ok], ?_, skip_inv z3 (by omega)⟩
    rcases z4 with z4 | ⟨rfl, z4⟩
    · exact skip_eof z4 j
    · exact skip_short z3 (by omega) (by rw [bin_length] at z4; exact z4)

theorem op_cut {r : R} (h : Inv r) {o : Op} {e : Elem} {v : Option Int} {l s : List Bool} (hr : Reads o e v) (hc : Code e l) (hl : r.eof = true ∨ r.eof = false ∧ s ≠ [] ∧ left r ++ s = l) :
    ∃ x, o.run r = .ok x ∧ x.2.eof = true ∧ Inv x.2 := by
  have hlen : r.eof = false → s ≠ [] → left r ++ s = l → (left r).length < l.length := by
    intro _ hs hl
    have := congrArg List.length hl
    rw [List.length_append] at this
    have := List.length_pos_iff.2 hs
    omega
  cases hr with
  | @get n v hn =>
    cases hc with
    | u hv =>
      have hp : (0 + 1) * 2 ^ n ≤ 2 ^ 31 := by
        have := Nat.pow_le_pow_right (n := 2) (by omega) hn
        omega
      have : ∃ x, R.get n 0 r = .ok x ∧ Inv x.2 ∧ x.2.eof = true := by
        rcases hl with he | ⟨he, hs, hl⟩
        · obtain ⟨x, e1, e2, e3⟩ := get_total n 0 r h hp
          exact ⟨x, e1, e2, e3 he⟩
        · exact get_short n 0 r h hp (by have := hlen he hs hl; rw [bin_length] at this; exact this)
      obtain ⟨x, e1, e2, e3⟩ := this
      exact ⟨(some x.1, x.2), by rw [Op.run, e1, Res.map_ok], e3, e2⟩
  | @skip n v hn =>
    cases hc with
    | u hv =>
      refine ⟨(none, r.skip n), rfl, ?_, skip_inv h hn⟩
      rcases hl with he | ⟨he, hs, hl⟩
      · exact skip_eof he n
      · exact skip_short h hn (by have := hlen he hs hl; rw [bin_length] at this; exact this)
  | ue hv =>
    cases hc with
    | ue hg =>
      obtain ⟨⟨x, e1, e2, e3⟩, -⟩ := golomb_cut h hg hv hl
      exact ⟨(some x.1, x.2), by rw [Op.run, e1, Res.map_ok], e2, e3⟩
  | se hv =>
    cases hc with
    | se hg =>
      obtain ⟨⟨x, e1, e2, e3⟩, -⟩ := golomb_cut h hg hv hl
      exact ⟨_, by rw [Op.run, R.se, e1, Res.map_ok, Res.map_ok], e2, e3⟩
  | skipUe hv =>
    cases hc with
    | ue hg =>
      obtain ⟨-, x, e1, e2, e3⟩ := golomb_cut h hg hv hl
      exact ⟨(none, x), by rw [Op.run, e1, Res.map_ok], e2, e3⟩
  | skipSe hv =>
    cases hc with
    | se hg =>
      obtain ⟨-, x, e1, e2, e3⟩ := golomb_cut h hg hv hl
      exact ⟨(none, x), by rw [Op.run, e1, Res.map_ok], e2, e3⟩

theorem runs_spec : ∀ {os : List Op} {es : List Elem} {vs : List (Option Int)}, ReadsAll os es vs → ∀ {r : R} {l t : List Bool}, Inv r → r.eof = false → Codes es l → left r = l ++ t →
    ∃ r', runs os r = .ok (vs, r') ∧ left r' = t ∧ r'.eof = false ∧ Inv r'
  | _, _, _, .nil, r, l, t, h, he, hc, hl => by
    cases hc
    exact ⟨r, rfl, hl, he, h⟩
  | _, _, _, .cons hr ha, r, l, t, h, he, hc, hl => by
    cases hc with
    | cons c1 c2 =>
      rw [List.append_assoc] at hl
      obtain ⟨r1, e1, e2, e3, e4⟩ := op_spec h he hr c1 hl
      obtain ⟨r2, f1, f2, f3, f4⟩ := runs_spec ha e4 e3 c2 e2
      exact ⟨r2, by rw [runs, e1, Res.bind_ok, f1, Res.map_ok], f2, f3, f4⟩

theorem runs_cut : ∀ {os : List Op} {es : List Elem} {vs : List (Option Int)}, ReadsAll os es vs → ∀ {r : R} {l s : List Bool}, Inv r → Codes es l → (r.eof = true ∨ r.eof = false ∧ s ≠ [] ∧ left r ++ s = l) →
    ∃ x, runs os r = .ok x ∧ x.2.eof = true
  | _, _, _, .nil, r, l, s, h, hc, hl => by
    cases hc
    rcases hl with he | ⟨-, hs, hl⟩
    · exact ⟨_, rfl, he⟩
    · exact absurd (List.append_eq_nil_iff.1 hl).2 hs
  | _, _, _, @ReadsAll.cons o e v os es vs hr ha, r, l, s, h, hc, hl => by
    cases hc with
    | @cons _ _ l1 l2 c1 c2 =>
      have done : (∃ x, Op.run o r = .ok x ∧ x.2.eof = true ∧ Inv x.2) → ∃ x, runs (o :: os) r = .ok x ∧ x.2.eof = true := by
        rintro ⟨x, e1, e2, e3⟩
        obtain ⟨y, f1, f2⟩ := runs_cut ha (s := s) e3 c2 (Or.inl e2)
        exact ⟨(x.1 :: y.1, y.2), by rw [runs, e1, Res.bind_ok, f1, Res.map_ok], f2⟩
      rcases hl with he | ⟨he, hs, hl⟩
      · exact done (op_cut h hr c1 (s := s) (Or.inl he))
      · by_cases hk : (left r).length < l1.length
        · refine done (op_cut h hr c1 (s := l1.drop (left r).length) (Or.inr ⟨he, ?_, ?_⟩))
          · intro hh
            have := congrArg List.length hh
            rw [List.length_drop, List.length_nil] at this
            omega
          · have := congrArg (List.take l1.length) hl
            rw [List.take_append_of_le_length (l₁ := l1) (Nat.le_refl _), List.take_length] at this
            have h2 := congrArg (List.take (left r).length) hl
            rw [List.take_append_of_le_length (Nat.le_refl _), List.take_length, List.take_append_of_le_length (by omega)] at h2
            conv => lhs; rw [h2]
            have h3 : (l1.take (left r).length).length = (left r).length := by rw [List.length_take]; omega
            rw [h3, List.take_append_drop]
        · have h1 : left r = l1 ++ (left r).drop l1.length := by
            have := congrArg (List.take l1.length) hl
            rw [List.take_append_of_le_length (by omega), List.take_append_of_le_length (Nat.le_refl _), List.take_length] at this
            conv => lhs; rw [← List.take_append_drop l1.length (left r), this]
          obtain ⟨r1, e1, e2, e3, e4⟩ := op_spec h he hr c1 h1
          have h4 : left r1 ++ s = l2 := by
            have := congrArg (List.drop l1.length) hl
            rw [List.drop_append_of_le_length (by omega), List.drop_append_of_le_length (Nat.le_refl _), List.drop_length, List.nil_append] at this
            rw [e2]
            exact this
          obtain ⟨y, f1, f2⟩ := runs_cut ha e4 c2 (Or.inr ⟨e3, hs, h4⟩)
          exact ⟨(v :: y.1, y.2), by rw [runs, e1, Res.bind_ok, f1, Res.map_ok], f2⟩

theorem init_inv (b : List UInt8) : Inv (R.init b) := ⟨by simp [R.init], by simp [R.init]⟩

theorem init_left (b : List UInt8) : left (R.init b) = bits b := by simp [left, R.init, bin]

/-- C126: elements are read as they were written; the bytes that were taken are those with bits of the elements. -/
theorem reads_ok {os : List Op} {es : List Elem} {vs : List (Option Int)} {b : List UInt8} {l t : List Bool} (hr : ReadsAll os es vs) (hc : Codes es l) (hb : bits b = l ++ t) :
    ∃ r, runs os (R.init b) = .ok (vs, r) ∧ r.eof = false ∧ b.length - r.rest.length = (l.length + 7) / 8 := by
  obtain ⟨r, e1, e2, e3, e4⟩ := runs_spec hr (init_inv b) rfl hc (by rw [init_left, hb])
  refine ⟨r, e1, e3, ?_⟩
  have h1 := rest_length e4
  have h2 := bits_length b
  rw [hb, List.length_append] at h2
  rw [e2] at h1
  omega

/-- C126: when data ends before the elements, this is noticed, and nothing undefined happens. -/
theorem cut_ok {os : List Op} {es : List Elem} {vs : List (Option Int)} {b : List UInt8} {l s : List Bool} (hr : ReadsAll os es vs) (hc : Codes es l) (hs : s ≠ []) (hb : bits b ++ s = l) :
    ∃ x, runs os (R.init b) = .ok x ∧ x.2.eof = true :=
  runs_cut hr (init_inv b) hc (Or.inr ⟨rfl, hs, by rw [init_left, hb]⟩)

end Verif.Rbsp
