import Verif.AacCfg
import Verif.AacCfgSpec
import Verif.RbspBits

/-!
# Configuration of AAC: proofs
-/

namespace Verif.AacCfg

open Verif.Rbsp Verif.RbspSpec Verif.AacCfgSpec

theorem get0 {n v : Nat} {r : R} {t : List Bool} (h : Inv r) (hn : n ≤ 31) (hv : v < 2 ^ n) (hl : left r = bin n v ++ t) : ∃ r', R.get n 0 r = .ok (v, r') ∧ left r' = t ∧ r'.eof = r.eof ∧ Inv r' := by
  have hp := Nat.pow_le_pow_right (n := 2) (by omega) hn
  obtain ⟨r', e1, e2⟩ := get_spec n 0 v r t h hv (by omega) hl
  exact ⟨r', by rw [e1, Nat.zero_mul, Nat.zero_add], e2⟩

theorem get0_total {n : Nat} {r : R} (h : Inv r) (hn : n ≤ 31) : ∃ x, R.get n 0 r = .ok x ∧ Inv x.2 ∧ (r.eof = true → x.2.eof = true) := by
  have hp := Nat.pow_le_pow_right (n := 2) (by omega) hn
  exact get_total n 0 r h (by omega)

theorem get0_short {n : Nat} {r : R} (h : Inv r) (hn : n ≤ 31) (hl : (left r).length < n) : ∃ x, R.get n 0 r = .ok x ∧ Inv x.2 ∧ x.2.eof = true := by
  have hp := Nat.pow_le_pow_right (n := 2) (by omega) hn
  exact get_short n 0 r h (by omega) hl

theorem get_add : ∀ (m n acc : Nat) (r : R), R.get (m + n) acc r = R.get m acc r >>= fun x => R.get n x.1 x.2
  | 0, n, acc, r => by rw [Nat.zero_add, R.get, Res.bind_ok]
  | m + 1, n, acc, r => by
    rw [show m + 1 + n = m + n + 1 by omega, R.get, R.get]
    split
    · rfl
    · exact get_add m n _ _

theorem get_bound : ∀ (n acc : Nat) (r : R) (x : Nat × R), R.get n acc r = .ok x → acc * 2 ^ n ≤ x.1 ∧ x.1 < (acc + 1) * 2 ^ n
  | 0, acc, r, x, h => by
    rw [R.get] at h
    cases h
    simp
  | n + 1, acc, r, x, h => by
    rw [R.get] at h
    split at h
    · cases h
    · obtain ⟨h1, h2⟩ := get_bound n _ _ x h
      have hb : r.one.1.toNat ≤ 1 := by cases r.one.1 <;> decide
      have e1 : acc * 2 ^ (n + 1) = (2 * acc) * 2 ^ n := by rw [Nat.pow_succ, Nat.mul_comm (2 ^ n) 2, ← Nat.mul_assoc, Nat.mul_comm acc 2]
      have e2 : (acc + 1) * 2 ^ (n + 1) = (2 * acc + 2) * 2 ^ n := by rw [Nat.pow_succ, Nat.mul_comm (2 ^ n) 2, ← Nat.mul_assoc, Nat.add_mul, Nat.mul_comm acc 2]
      rw [e1, e2]
      exact ⟨Nat.le_trans (Nat.mul_le_mul_right _ (by omega)) h1, Nat.lt_of_lt_of_le h2 (Nat.mul_le_mul_right _ (by omega))⟩

/-! ## Fields -/

theorem objType_spec {r : R} (h : Inv r) {a : Nat} {t : List Bool} (ha : TypeOk a) (hl : left r = typeBits a ++ t) : ∃ r', objType r = .ok (a, r') ∧ left r' = t ∧ r'.eof = r.eof ∧ Inv r' := by
  unfold typeBits at hl
  unfold objType
  by_cases h31 : a < 31
  · rw [if_pos h31] at hl
    obtain ⟨r', e1, e2, e3, e4⟩ := get0 h (by omega) (by omega) hl
    exact ⟨r', by rw [e1, Res.bind_ok, if_neg (by simp only []; omega)], e2, e3, e4⟩
  · rw [if_neg h31, List.append_assoc] at hl
    unfold TypeOk at ha
    obtain ⟨r1, e1, e2, e3, e4⟩ := get0 h (by omega) (by omega) hl
    obtain ⟨r2, f1, f2, f3, f4⟩ := get0 e4 (by omega) (by omega) e2
    refine ⟨r2, ?_, f2, by rw [f3, e3], f4⟩
    rw [e1, Res.bind_ok, if_pos rfl, f1, Res.map_ok]
    congr 2
    omega

theorem rateIdx_spec {r : R} (h : Inv r) {f : Rate} {t : List Bool} (hf : f.Ok) (hl : left r = f.bits ++ t) : ∃ r', rateIdx r = .ok (f.idx, r') ∧ left r' = t ∧ r'.eof = r.eof ∧ Inv r' := by
  unfold rateIdx
  cases f with
  | index i =>
    have hi : i < 15 := hf
    obtain ⟨r', e1, e2, e3, e4⟩ := get0 h (by omega) (show i < 2 ^ 4 by omega) hl
    exact ⟨r', by rw [e1, Res.bind_ok, if_neg (by simp only []; omega)]; rfl, e2, e3, e4⟩
  | hz f =>
    have hf : f < 2 ^ 24 := hf
    have hl : left r = bin 4 15 ++ bin 24 f ++ t := hl
    rw [List.append_assoc] at hl
    obtain ⟨r1, e1, e2, e3, e4⟩ := get0 h (by omega) (by omega) hl
    obtain ⟨r2, f1, f2, f3, f4⟩ := get0 e4 (by omega) hf e2
    exact ⟨r2, by rw [e1, Res.bind_ok, if_pos rfl, f1, Res.map_ok]; rfl, f2, by rw [f3, e3], f4⟩

theorem objType_total {r : R} (h : Inv r) : ∃ x, objType r = .ok x ∧ Inv x.2 ∧ (r.eof = true → x.2.eof = true) := by
  unfold objType
  obtain ⟨x, e1, e2, e3⟩ := get0_total h (show 5 ≤ 31 by omega)
  rw [e1, Res.bind_ok]
  by_cases hx : x.1 = 31
  · obtain ⟨y, f1, f2, f3⟩ := get0_total e2 (show 6 ≤ 31 by omega)
    rw [if_pos hx, f1, Res.map_ok]
    exact ⟨_, rfl, f2, fun hh => f3 (e3 hh)⟩
  · rw [if_neg hx]
    exact ⟨_, rfl, e2, e3⟩

theorem rateIdx_total {r : R} (h : Inv r) : ∃ x, rateIdx r = .ok x ∧ Inv x.2 ∧ (r.eof = true → x.2.eof = true) := by
  unfold rateIdx
  obtain ⟨x, e1, e2, e3⟩ := get0_total h (show 4 ≤ 31 by omega)
  rw [e1, Res.bind_ok]
  by_cases hx : x.1 = 15
  · obtain ⟨y, f1, f2, f3⟩ := get0_total e2 (show 24 ≤ 31 by omega)
    rw [if_pos hx, f1, Res.map_ok]
    exact ⟨_, rfl, f2, fun hh => f3 (e3 hh)⟩
  · rw [if_neg hx]
    exact ⟨_, rfl, e2, e3⟩

theorem hasExt_total (a : Nat) {r : R} (h : Inv r) : ∃ x, hasExt a r = .ok x := by
  unfold hasExt
  split
  · exact ⟨_, rfl⟩
  · split
    · unfold isPs
      obtain ⟨x, e1, e2, -⟩ := get0_total h (show 3 ≤ 31 by omega)
      rw [e1, Res.bind_ok]
      split
      · obtain ⟨y, f1, -, -⟩ := get0_total e2 (show 9 ≤ 31 by omega)
        rw [f1, Res.map_ok]
        exact ⟨_, rfl⟩
      · exact ⟨_, rfl⟩
    · exact ⟨_, rfl⟩

theorem extType_total {r : R} (h : Inv r) : ∃ x, extType r = .ok x := by
  unfold extType
  obtain ⟨x, e1, e2, -⟩ := rateIdx_total h
  rw [e1, Res.bind_ok]
  split
  · exact ⟨_, rfl⟩
  · obtain ⟨y, f1, -, -⟩ := objType_total e2
    rw [f1, Res.map_ok]
    exact ⟨_, rfl⟩

/-- The check for the old format: with an index and a type that does not end in three zeros it fails. -/
theorem isPs_spec {r : R} (h : Inv r) {i e : Nat} {t : List Bool} (hi : i < 15) (he : TypeOk e) (h8 : e % 8 ≠ 0 ∨ 31 < e) (hl : left r = bin 4 i ++ (typeBits e ++ t)) : isPs r = .ok true := by
  -- the five bits of the type
  obtain ⟨q, s, hq, hq8, hs⟩ : ∃ q s, q < 32 ∧ q % 8 ≠ 0 ∧ typeBits e ++ t = bin 5 q ++ s := by
    unfold typeBits
    unfold TypeOk at he
    by_cases h31 : e < 31
    · exact ⟨e, t, by omega, by omega, by rw [if_pos h31]⟩
    · exact ⟨31, bin 6 (e - 32) ++ t, by omega, by omega, by rw [if_neg h31, List.append_assoc]⟩
  rw [hs] at hl
  have hp : (0 + 1) * 2 ^ 9 ≤ 2 ^ 31 := by decide
  have h4 : bin 4 i = bin 3 (i / 2) ++ bin 1 (i % 2) := by
    have : ∀ i : Fin 15, bin 4 i.1 = bin 3 (i.1 / 2) ++ bin 1 (i.1 % 2) := by decide
    exact this ⟨i, hi⟩
  have h6 : bin 1 (i % 2) ++ bin 5 q = bin 6 (i % 2 * 32 + q) := by
    have : ∀ (j : Fin 2) (q : Fin 32), bin 1 j.1 ++ bin 5 q.1 = bin 6 (j.1 * 32 + q.1) := by decide
    exact this ⟨i % 2, by omega⟩ ⟨q, hq⟩
  rw [h4, List.append_assoc, ← List.append_assoc (bin 1 _), h6] at hl
  obtain ⟨r1, e1, e2, -, e4⟩ := get0 h (by omega) (show i / 2 < 2 ^ 3 by omega) hl
  unfold isPs
  rw [e1, Res.bind_ok]
  simp only []
  by_cases hm : i / 2 % 4 ≠ 0
  · rw [if_pos hm]
    obtain ⟨r2, f1, f2, -, f4⟩ := get0 e4 (by omega) (show i % 2 * 32 + q < 2 ^ 6 by omega) e2
    obtain ⟨y, g1, -, -⟩ := get_total 3 (i % 2 * 32 + q) r2 f4 (by omega)
    have hb := get_bound 3 _ _ _ g1
    rw [show 9 = 6 + 3 from rfl, get_add, f1, Res.bind_ok]
    simp only []
    rw [g1, Res.map_ok, decide_eq_true]
    omega
  · rw [if_neg hm]

/-! ## Configurations -/

/-- C129: whatever the data, there is no undefined behaviour. -/
theorem mp4a_total (b : List UInt8) : ∃ x, mp4a b = .ok x := by
  unfold mp4a
  obtain ⟨a, a1, a2, -⟩ := objType_total (init_inv b)
  rw [a1, Res.bind_ok]
  obtain ⟨f, f1, f2, -⟩ := rateIdx_total a2
  rw [f1, Res.bind_ok]
  obtain ⟨c, c1, c2, -⟩ := get0_total f2 (show 4 ≤ 31 by omega)
  rw [c1, Res.bind_ok]
  split
  · exact ⟨_, rfl⟩
  · obtain ⟨x, hx⟩ := hasExt_total a.1 c2
    rw [hx, Res.bind_ok]
    split
    · obtain ⟨o, ho⟩ := extType_total c2
      rw [ho, Res.map_ok]
      exact ⟨_, rfl⟩
    · exact ⟨_, rfl⟩

/-- C129 in part: of a configuration the type of the stream beneath, the rate and the channels are read; for PS, when the rate of the extension is an index and the type beneath does not end in three zero bits. -/
theorem mp4a_partial {b : List UInt8} {c : Cfg} {t : List Bool} (hc : c.Ok) (hb : bits b = c.bits ++ t) (hp : c.type = 29 → ∀ e, c.ext = some e → e.1.idx < 15 ∧ (e.2 % 8 ≠ 0 ∨ 31 < e.2)) :
    mp4a b = .ok (some (c.base, c.rate.idx, c.chan)) := by
  have hl : left (R.init b) = typeBits c.type ++ (c.rate.bits ++ (bin 4 c.chan ++ (extBits c.ext ++ t))) := by
    rw [init_left, hb, Cfg.bits]
    simp only [List.append_assoc]
  obtain ⟨r1, a1, a2, a3, a4⟩ := objType_spec (init_inv b) hc.type hl
  obtain ⟨r2, f1, f2, f3, f4⟩ := rateIdx_spec a4 hc.rate a2
  obtain ⟨r3, c1, c2, c3, c4⟩ := get0 f4 (by omega) (show c.chan < 2 ^ 4 from hc.chan) f2
  have he3 : r3.eof = false := by rw [c3, f3, a3]; rfl
  unfold mp4a
  rw [a1, Res.bind_ok]
  simp only []
  rw [f1, Res.bind_ok]
  simp only []
  rw [c1, Res.bind_ok]
  simp only []
  rw [if_neg (by rw [he3]; simp)]
  unfold Cfg.base
  cases he : c.ext with
  | none =>
    have hn : ¬ (c.type = 5 ∨ c.type = 29) := fun hh => hc.ext.2 hh he
    unfold hasExt
    rw [if_neg (fun hh => hn (Or.inl hh)), if_neg (fun hh => hn (Or.inr hh)), Res.bind_ok]
    rfl
  | some e =>
    have hy : c.type = 5 ∨ c.type = 29 := hc.ext.1 (by rw [he]; simp)
    obtain ⟨g1, g2⟩ := hc.extOk e he
    rw [he, extBits, List.append_assoc] at c2
    have hx : hasExt c.type r3 = .ok true := by
      unfold hasExt
      by_cases h5 : c.type = 5
      · rw [if_pos h5]
      · have h29 : c.type = 29 := by omega
        rw [if_neg h5, if_pos h29]
        obtain ⟨p1, p2⟩ := hp h29 e he
        obtain ⟨x, y⟩ := e
        cases x with
        | index i => exact isPs_spec c4 p1 g2 p2 c2
        | hz f => exact absurd p1 (by simp [Rate.idx])
    rw [hx, Res.bind_ok, if_pos rfl]
    obtain ⟨r4, d1, d2, d3, d4⟩ := rateIdx_spec c4 g1 c2
    obtain ⟨r5, o1, o2, o3, o4⟩ := objType_spec d4 g2 d2
    unfold extType
    rw [d1, Res.bind_ok]
    simp only []
    rw [if_neg (by rw [d3, he3]; simp), o1, Res.map_ok, Res.map_ok]
    simp only []
    rw [if_neg (by rw [o3, d3, he3]; simp)]
    rfl

/-! ## Data that ends early -/

/-- The data ends within these bits, or ended before. -/
def Cut (r : R) (l : List Bool) : Prop := r.eof = true ∨ ∃ s, s ≠ [] ∧ left r ++ s = l

theorem cut_seq {r : R} {l1 l2 : List Bool} (h : Cut r (l1 ++ l2)) : Cut r l1 ∨ ∃ t, left r = l1 ++ t ∧ ∃ s, s ≠ [] ∧ t ++ s = l2 := by
  rcases h with h | ⟨s, hs, h⟩
  · exact Or.inl (Or.inl h)
  · rcases List.append_eq_append_iff.1 h with ⟨q, h1, h2⟩ | ⟨q, h1, h2⟩
    · cases q with
      | nil => exact Or.inr ⟨[], by rw [h1, List.append_nil, List.append_nil], s, hs, by rw [h2]; rfl⟩
      | cons x q => exact Or.inl (Or.inr ⟨x :: q, by simp, h1.symm⟩)
    · exact Or.inr ⟨q, h1, s, hs, h2.symm⟩

theorem get_cut {n v : Nat} {r : R} (h : Inv r) (hn : n ≤ 31) (hc : Cut r (bin n v)) : ∃ x, R.get n 0 r = .ok x ∧ Inv x.2 ∧ x.2.eof = true := by
  rcases hc with he | ⟨s, hs, hl⟩
  · obtain ⟨x, e1, e2, e3⟩ := get0_total h hn
    exact ⟨x, e1, e2, e3 he⟩
  · have := congrArg List.length hl
    rw [List.length_append, bin_length] at this
    have := List.length_pos_iff.2 hs
    exact get0_short h hn (by omega)

theorem objType_cut {r : R} (h : Inv r) {a : Nat} (hc : Cut r (typeBits a)) : ∃ x, objType r = .ok x ∧ Inv x.2 ∧ x.2.eof = true := by
  have first : (∃ x, R.get 5 0 r = .ok x ∧ Inv x.2 ∧ x.2.eof = true) → ∃ x, objType r = .ok x ∧ Inv x.2 ∧ x.2.eof = true := by
    rintro ⟨x, e1, e2, e3⟩
    unfold objType
    rw [e1, Res.bind_ok]
    by_cases hx : x.1 = 31
    · obtain ⟨y, f1, f2, f3⟩ := get0_total e2 (show 6 ≤ 31 by omega)
      rw [if_pos hx, f1, Res.map_ok]
      exact ⟨_, rfl, f2, f3 e3⟩
    · rw [if_neg hx]
      exact ⟨_, rfl, e2, e3⟩
  unfold typeBits at hc
  by_cases h31 : a < 31
  · rw [if_pos h31] at hc
    exact first (get_cut h (by omega) hc)
  · rw [if_neg h31] at hc
    rcases cut_seq hc with hc | ⟨t, hl, s, hs, ht⟩
    · exact first (get_cut h (by omega) hc)
    · obtain ⟨r1, e1, e2, e3, e4⟩ := get0 h (by omega) (by omega) hl
      obtain ⟨y, f1, f2, f3⟩ := get_cut (v := a - 32) e4 (show 6 ≤ 31 by omega) (Or.inr ⟨s, hs, by rw [e2]; exact ht⟩)
      unfold objType
      rw [e1, Res.bind_ok, if_pos rfl, f1, Res.map_ok]
      exact ⟨_, rfl, f2, f3⟩

theorem rateIdx_cut {r : R} (h : Inv r) {f : Rate} (hc : Cut r f.bits) : ∃ x, rateIdx r = .ok x ∧ Inv x.2 ∧ x.2.eof = true := by
  have first : (∃ x, R.get 4 0 r = .ok x ∧ Inv x.2 ∧ x.2.eof = true) → ∃ x, rateIdx r = .ok x ∧ Inv x.2 ∧ x.2.eof = true := by
    rintro ⟨x, e1, e2, e3⟩
    unfold rateIdx
    rw [e1, Res.bind_ok]
    by_cases hx : x.1 = 15
    · obtain ⟨y, f1, f2, f3⟩ := get0_total e2 (show 24 ≤ 31 by omega)
      rw [if_pos hx, f1, Res.map_ok]
      exact ⟨_, rfl, f2, f3 e3⟩
    · rw [if_neg hx]
      exact ⟨_, rfl, e2, e3⟩
  cases f with
  | index i => exact first (get_cut h (by omega) hc)
  | hz f =>
    have hc : Cut r (bin 4 15 ++ bin 24 f) := hc
    rcases cut_seq hc with hc | ⟨t, hl, s, hs, ht⟩
    · exact first (get_cut h (by omega) hc)
    · obtain ⟨r1, e1, e2, e3, e4⟩ := get0 h (by omega) (by omega) hl
      obtain ⟨y, f1, f2, f3⟩ := get_cut (v := f) e4 (show 24 ≤ 31 by omega) (Or.inr ⟨s, hs, by rw [e2]; exact ht⟩)
      unfold rateIdx
      rw [e1, Res.bind_ok, if_pos rfl, f1, Res.map_ok]
      exact ⟨_, rfl, f2, f3⟩

/-- C129 in part: data that ends within a configuration, other than of PS, is refused. -/
theorem cut_partial {b : List UInt8} {c : Cfg} {s : List Bool} (hc : c.Ok) (hs : s ≠ []) (hb : bits b ++ s = c.bits) (hp : c.type ≠ 29) : mp4a b = .ok none := by
  -- the first three fields end early
  have early : ∀ {a : Nat × R} {f : Nat × R} {k : Nat × R}, objType (R.init b) = .ok a → rateIdx a.2 = .ok f → R.get 4 0 f.2 = .ok k → k.2.eof = true → mp4a b = .ok none := by
    intro a f k h1 h2 h3 h4
    unfold mp4a
    rw [h1, Res.bind_ok, h2, Res.bind_ok, h3, Res.bind_ok, if_pos h4]
  have h0 : Cut (R.init b) (typeBits c.type ++ (c.rate.bits ++ (bin 4 c.chan ++ extBits c.ext))) := Or.inr ⟨s, hs, by rw [init_left]; exact hb⟩
  rcases cut_seq h0 with h0 | ⟨t1, l1, s1, hs1, ht1⟩
  · obtain ⟨a, a1, a2, a3⟩ := objType_cut (init_inv b) h0
    obtain ⟨f, f1, f2, f3⟩ := rateIdx_total a2
    obtain ⟨k, k1, k2, k3⟩ := get0_total f2 (show 4 ≤ 31 by omega)
    exact early a1 f1 k1 (k3 (f3 a3))
  · obtain ⟨r1, a1, a2, a3, a4⟩ := objType_spec (init_inv b) hc.type l1
    rcases cut_seq (r := r1) (l1 := c.rate.bits) (l2 := bin 4 c.chan ++ extBits c.ext) (Or.inr ⟨s1, hs1, by rw [a2]; exact ht1⟩) with h1 | ⟨t2, l2, s2, hs2, ht2⟩
    · obtain ⟨f, f1, f2, f3⟩ := rateIdx_cut a4 h1
      obtain ⟨k, k1, k2, k3⟩ := get0_total f2 (show 4 ≤ 31 by omega)
      exact early a1 f1 k1 (k3 f3)
    · obtain ⟨r2, f1, f2, f3, f4⟩ := rateIdx_spec a4 hc.rate l2
      rcases cut_seq (r := r2) (l1 := bin 4 c.chan) (l2 := extBits c.ext) (Or.inr ⟨s2, hs2, by rw [f2]; exact ht2⟩) with h2 | ⟨t3, l3, s3, hs3, ht3⟩
      · obtain ⟨k, k1, k2, k3⟩ := get_cut f4 (by omega) h2
        exact early a1 f1 k1 k3
      · obtain ⟨r3, c1, c2, c3, c4⟩ := get0 f4 (by omega) (show c.chan < 2 ^ 4 from hc.chan) l3
        cases he : c.ext with
        | none =>
          rw [he, extBits] at ht3
          exact absurd (List.append_eq_nil_iff.1 ht3).2 hs3
        | some e =>
          have h5 : c.type = 5 := by
            rcases hc.ext.1 (by rw [he]; simp) with hh | hh
            · exact hh
            · exact absurd hh hp
          have he3 : r3.eof = false := by rw [c3, f3, a3]; rfl
          rw [he, extBits] at ht3
          obtain ⟨g1, g2⟩ := hc.extOk e he
          have hx : extType r3 = .ok none := by
            unfold extType
            rcases cut_seq (r := r3) (l1 := e.1.bits) (l2 := typeBits e.2) (Or.inr ⟨s3, hs3, by rw [c2]; exact ht3⟩) with h3 | ⟨t4, l4, s4, hs4, ht4⟩
            · obtain ⟨g, d1, d2, d3⟩ := rateIdx_cut c4 h3
              rw [d1, Res.bind_ok, if_pos d3]
            · obtain ⟨r4, d1, d2, d3, d4⟩ := rateIdx_spec c4 g1 l4
              obtain ⟨o, o1, o2, o3⟩ := objType_cut d4 (a := e.2) (Or.inr ⟨s4, hs4, by rw [d2]; exact ht4⟩)
              rw [d1, Res.bind_ok]
              simp only []
              rw [if_neg (by rw [d3, he3]; simp), o1, Res.map_ok, if_pos o3]
          unfold mp4a
          rw [a1, Res.bind_ok]
          simp only []
          rw [f1, Res.bind_ok]
          simp only []
          rw [c1, Res.bind_ok]
          simp only []
          rw [if_neg (by rw [he3]; simp), hasExt, if_pos h5, Res.bind_ok, if_pos rfl, hx, Res.map_ok]
          rfl

end Verif.AacCfg
