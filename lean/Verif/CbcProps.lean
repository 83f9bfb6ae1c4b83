import Verif.Cbc
import Verif.CbcSpec

/-!
# Segments that are encrypted as a whole: proofs
-/

namespace Verif.Cbc

open Verif.Cenc (Cipher)
open Verif.CbcSpec (dec unpad decode Undoes)

theorem cbc_add (E : Cipher) (k : Nat) : ∀ (j : Nat) (c d : List UInt8), cbc E (j + k) c d =
    ((cbc E j c d).1 ++ (cbc E k (cbc E j c d).2 (d.drop (16 * j))).1, (cbc E k (cbc E j c d).2 (d.drop (16 * j))).2)
  | 0, c, d => by simp [cbc]
  | j + 1, c, d => by
    have ih := cbc_add E k j (E.enc (xorB (d.take 16) c)) (d.drop 16)
    rw [show j + 1 + k = (j + k) + 1 by omega]
    simp only [cbc]
    rw [ih]
    simp only [List.drop_drop, List.append_assoc, show 16 + 16 * j = 16 * (j + 1) by omega]

theorem cbc_prefix (E : Cipher) : ∀ (k : Nat) (c d t : List UInt8), 16 * k ≤ d.length → cbc E k c (d ++ t) = cbc E k c d
  | 0, _, _, _, _ => rfl
  | k + 1, c, d, t, h => by
    simp only [cbc]
    rw [List.take_append_of_le_length (by omega), List.drop_append_of_le_length (by omega), cbc_prefix E k _ (d.drop 16) t (by rw [List.length_drop]; omega)]

theorem xorB_length {a b : List UInt8} (h : a.length = 16) (hb : b.length = 16) : (xorB a b).length = 16 := by simp [xorB, h, hb]

theorem cbc_length (E : Cipher) : ∀ (k : Nat) (c d : List UInt8), c.length = 16 → 16 * k ≤ d.length → (cbc E k c d).1.length = 16 * k ∧ (cbc E k c d).2.length = 16
  | 0, c, _, hc, _ => ⟨rfl, hc⟩
  | k + 1, c, d, hc, h => by
    have h1 : (E.enc (xorB (d.take 16) c)).length = 16 := E.len _ (xorB_length (by rw [List.length_take]; omega) hc)
    obtain ⟨i1, i2⟩ := cbc_length E k _ (d.drop 16) h1 (by rw [List.length_drop]; omega)
    simp only [cbc]
    exact ⟨by rw [List.length_append, h1, i1]; omega, i2⟩

theorem xor_back : ∀ {a b : List UInt8}, a.length = b.length → CbcSpec.xorB (xorB a b) b = a
  | [], [], _ => rfl
  | x :: a, y :: b, h => by
    have ih := xor_back (a := a) (b := b) (by simpa using h)
    unfold CbcSpec.xorB xorB at ih ⊢
    simp only [List.zipWith_cons_cons]
    rw [ih, UInt8.xor_assoc, UInt8.xor_self, UInt8.xor_zero]

theorem dec_cbc {E : Cipher} {D : List UInt8 → List UInt8} (hD : Undoes D E.enc) : ∀ (k : Nat) (c d t : List UInt8), c.length = 16 → 16 * k ≤ d.length →
    dec D k c ((cbc E k c d).1 ++ t) = d.take (16 * k)
  | 0, _, _, _, _, _ => by simp [dec]
  | k + 1, c, d, t, hc, h => by
    have ht : (d.take 16).length = 16 := by rw [List.length_take]; omega
    have h0 := xorB_length ht hc
    have h1 := E.len _ h0
    have ih := dec_cbc hD k (E.enc (xorB (d.take 16) c)) (d.drop 16) t h1 (by rw [List.length_drop]; omega)
    simp only [cbc, dec, List.append_assoc]
    rw [List.take_append_of_le_length (by omega), List.drop_append_of_le_length (by omega), List.take_of_length_le (by omega), List.drop_of_length_le (by omega), List.nil_append, ih, hD _ h0,
      xor_back (by omega), show 16 * (k + 1) = 16 + 16 * k by omega, List.take_add]

/-- The state after `x`. -/
def At (E : Cipher) (iv x : List UInt8) (e : Evp) : Prop := e = ⟨(cbc E (x.length / 16) iv x).2, x.drop (16 * (x.length / 16))⟩

/-- The output for `x`. -/
def outs (E : Cipher) (iv x : List UInt8) : List UInt8 := (cbc E (x.length / 16) iv x).1

theorem update_at {E : Cipher} {iv x : List UInt8} {e : Evp} (h : At E iv x e) (d : List UInt8) :
    At E iv (x ++ d) (e.update E d).1 ∧ outs E iv x ++ (e.update E d).2 = outs E iv (x ++ d) := by
  unfold At at h
  subst h
  have hx : x.drop (16 * (x.length / 16)) ++ d = (x ++ d).drop (16 * (x.length / 16)) := by
    rw [List.drop_append_of_le_length (by omega)]
  have hl : (x ++ d).length / 16 = x.length / 16 + ((x ++ d).drop (16 * (x.length / 16))).length / 16 := by
    rw [List.length_drop, List.length_append]
    omega
  have hp : cbc E (x.length / 16) iv (x ++ d) = cbc E (x.length / 16) iv x := cbc_prefix E _ _ _ _ (by omega)
  have ha := cbc_add E (((x ++ d).drop (16 * (x.length / 16))).length / 16) (x.length / 16) iv (x ++ d)
  rw [← hl, hp] at ha
  unfold At outs Evp.update
  simp only [hx, ha]
  refine ⟨?_, by trivial⟩
  rw [List.drop_drop, ← Nat.mul_add, ← hl]

theorem at_init (E : Cipher) (iv : List UInt8) : At E iv [] (Evp.init iv) := rfl

theorem outs_length {E : Cipher} {iv : List UInt8} (hi : iv.length = 16) (x : List UInt8) : (outs E iv x).length = 16 * (x.length / 16) :=
  (cbc_length E _ iv x hi (by omega)).1

/-- The output and the last block are those of the data with padding. -/
theorem final_at {E : Cipher} {iv x : List UInt8} {e : Evp} (h : At E iv x e) :
    outs E iv x ++ e.final E = (cbc E (x.length / 16 + 1) iv (x ++ List.replicate (16 - x.length % 16) (UInt8.ofNat (16 - x.length % 16)))).1 := by
  unfold At at h
  subst h
  have hr : (x.drop (16 * (x.length / 16))).length = x.length % 16 := by rw [List.length_drop]; omega
  rw [cbc_add, cbc_prefix E _ _ _ _ (by omega), List.drop_append_of_le_length (by omega)]
  unfold outs Evp.final
  simp only [hr]

theorem unpad_pad (x : List UInt8) : unpad (x ++ List.replicate (16 - x.length % 16) (UInt8.ofNat (16 - x.length % 16))) = some x := by
  obtain ⟨n, hn⟩ : ∃ n, n = 16 - x.length % 16 := ⟨_, rfl⟩
  have h1 : 1 ≤ n := by omega
  have h2 : n ≤ 16 := by omega
  rw [← hn]
  have hb : (UInt8.ofNat n).toNat = n := by
    rw [UInt8.toNat_ofNat']
    omega
  unfold unpad
  rw [List.getLast?_append, List.getLast?_replicate, if_neg (by omega)]
  simp only [Option.or, hb, List.length_append, List.length_replicate, Nat.add_sub_cancel]
  rw [List.drop_append_of_le_length (Nat.le_refl _), List.drop_length, List.nil_append, if_pos ⟨h1, h2, by omega, rfl⟩, List.take_append_of_le_length (Nat.le_refl _), List.take_length]

/-- What is made of data can be decrypted. -/
theorem decode_final {E : Cipher} {D : List UInt8 → List UInt8} (hD : Undoes D E.enc) {iv x : List UInt8} {e : Evp} (hi : iv.length = 16) (h : At E iv x e) :
    decode D iv (outs E iv x ++ e.final E) = some x ∧ (outs E iv x ++ e.final E).length = roundUp x.length := by
  obtain ⟨p, hp⟩ : ∃ p, p = x ++ List.replicate (16 - x.length % 16) (UInt8.ofNat (16 - x.length % 16)) := ⟨_, rfl⟩
  have hl : p.length = 16 * (x.length / 16 + 1) := by
    rw [hp, List.length_append, List.length_replicate]
    omega
  rw [final_at h, ← hp]
  have hc := (cbc_length E (x.length / 16 + 1) iv p hi (by omega)).1
  have hd := dec_cbc hD (x.length / 16 + 1) iv p [] hi (by omega)
  rw [List.append_nil, ← hl, List.take_length] at hd
  refine ⟨?_, by rw [hc]; unfold roundUp; omega⟩
  unfold decode
  rw [hc, if_pos (by omega), show 16 * (x.length / 16 + 1) / 16 = x.length / 16 + 1 by omega, hd, hp, unpad_pad]

theorem writes_at {E : Cipher} {iv : List UInt8} (hi : iv.length = 16) : ∀ (l : List (List UInt8)) (x : List UInt8) (e : Evp), At E iv x e →
    (∀ b ∈ l, b ≠ [] ∧ b.length < 2 ^ 32 - 16) → ∃ e', At E iv (x ++ l.flatten) e' ∧
      W.writes E ⟨e, outs E iv x, false⟩ (l ++ [[]]) = .ok ⟨e', outs E iv (x ++ l.flatten) ++ e'.final E, true⟩
  | [], x, e, h, _ => by
    refine ⟨e, by simpa using h, ?_⟩
    simp [W.writes, W.write]
  | b :: l, x, e, h, hl => by
    obtain ⟨u1, u2⟩ := update_at h b
    obtain ⟨hb, hs⟩ := hl b List.mem_cons_self
    obtain ⟨e', i1, i2⟩ := writes_at hi l (x ++ b) (e.update E b).1 u1 (fun y hy => hl y (List.mem_cons_of_mem _ hy))
    rw [List.append_assoc, ← List.flatten_cons] at i1 i2
    refine ⟨e', i1, ?_⟩
    have hlen : ¬ roundUp b.length % 2 ^ 32 < (e.update E b).2.length := by
      have h1 := outs_length (E := E) hi x
      have h2 := outs_length (E := E) hi (x ++ b)
      rw [← u2, List.length_append, h1, List.length_append] at h2
      unfold roundUp
      rw [Nat.mod_eq_of_lt (by omega)]
      omega
    have h0 : ¬ b.length = 0 := by
      intro hh
      exact hb (List.eq_nil_of_length_eq_zero hh)
    have hw : W.write E ⟨e, outs E iv x, false⟩ b = .ok ⟨(e.update E b).1, outs E iv (x ++ b), false⟩ := by
      unfold W.write
      rw [if_neg (by simp), if_neg h0, if_neg hlen, ← u2]
    rw [List.cons_append]
    show (W.write E ⟨e, outs E iv x, false⟩ b >>= fun w => w.writes E (l ++ [[]])) = _
    rw [hw, Res.bind_ok, i2]

/-- **C121** (part). A client with the key gets the segment without encryption, and the announced size is that of the body. Missing: segments with frames that have no data (`not_serves`). -/
theorem serves_partial {E : Cipher} {D : List UInt8 → List UInt8} (hD : Undoes D E.enc) {iv : List UInt8} (hi : iv.length = 16) {head : List UInt8} {frames : List (List UInt8)}
    (hh : head.length < 2 ^ 32 - 16) (hf : ∀ f ∈ frames, f ≠ [] ∧ f.length < 2 ^ 32 - 16) :
    ∃ s, serve E iv head frames = .ok (s, s.length) ∧ decode D iv s = some (head ++ frames.flatten) := by
  obtain ⟨l, hl⟩ : ∃ l, l = (if head.length = 0 then [] else [head]) ++ frames := ⟨_, rfl⟩
  have hfl : l.flatten = head ++ frames.flatten := by
    rw [hl]
    split
    · rename_i h0
      rw [List.eq_nil_of_length_eq_zero h0]
      rfl
    · rfl
  have hall : ∀ b ∈ l, b ≠ [] ∧ b.length < 2 ^ 32 - 16 := by
    intro b hb
    rw [hl] at hb
    split at hb
    · exact hf b hb
    · rename_i h0
      rcases List.mem_cons.1 hb with rfl | hb
      · exact ⟨fun hn => h0 (by rw [hn]; rfl), hh⟩
      · exact hf b hb
  obtain ⟨e', i1, i2⟩ := writes_at hi l [] _ (at_init E iv) hall
  rw [List.nil_append, hfl] at i1 i2
  obtain ⟨d1, d2⟩ := decode_final hD hi i1
  refine ⟨outs E iv (head ++ frames.flatten) ++ e'.final E, ?_, d1⟩
  unfold serve calls
  rw [← hl, show (⟨Evp.init iv, [], false⟩ : W) = ⟨Evp.init iv, outs E iv [], false⟩ from rfl, i2, Res.map_ok, d2]

/-- **C121** for init segments. -/
theorem whole_ok {E : Cipher} {D : List UInt8 → List UInt8} (hD : Undoes D E.enc) {iv : List UInt8} (hi : iv.length = 16) (d : List UInt8) :
    ∃ s, whole E iv d = .ok s ∧ decode D iv s = some d := by
  obtain ⟨u1, u2⟩ := update_at (at_init E iv) d
  rw [List.nil_append] at u1 u2
  rw [show outs E iv [] = [] from rfl, List.nil_append] at u2
  obtain ⟨d1, d2⟩ := decode_final hD hi u1
  refine ⟨_, ?_, d1⟩
  unfold whole
  rw [u2, if_neg (by rw [d2]; omega)]

end Verif.Cbc
