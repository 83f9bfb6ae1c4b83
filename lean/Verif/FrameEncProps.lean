import Verif.FrameEnc
import Verif.FrameEncSpec
import Verif.CbcProps

/-!
# SAMPLE-AES of audio: proofs
-/

namespace Verif.FrameEnc

open Verif.Cenc (Cipher)
open Verif.Cbc Verif.CbcSpec Verif.FrameEncSpec

/-- The bytes of a prefix that are encrypted. -/
def mid (m : Nat) (P : List UInt8) : List UInt8 := (P.take m).drop 16

/-- What is written for a prefix. -/
def enc (E : Cipher) (iv : List UInt8) (m : Nat) (P : List UInt8) : List UInt8 := P.take 16 ++ (outs E iv (mid m P) ++ P.drop (Nat.max 16 m))

/-- After the bytes `P` of a frame; `O` was written before. The state of the cipher is known if `G` holds. -/
structure Inv (E : Cipher) (iv : List UInt8) (m : Nat) (O : List UInt8) (G : Prop) (P : List UInt8) (s : S) : Prop where
  g : 16 < m → G
  cur : s.cur = P.length
  max : s.max = m
  evp : G → At E iv (mid m P) s.evp
  out : s.out = O ++ enc E iv m P

theorem outs_nil (E : Cipher) (iv : List UInt8) : outs E iv [] = [] := by simp [outs, cbc]

theorem mid_nil {m : Nat} {P : List UInt8} (h : m ≤ 16 ∨ P.length ≤ 16) : mid m P = [] := by
  unfold mid
  exact List.drop_of_length_le (by rw [List.length_take]; omega)

theorem lead_inv {E : Cipher} {iv : List UInt8} {m : Nat} {O : List UInt8} {G : Prop} {P p : List UInt8} {s : S} (h : Inv E iv m O G P s) (hp : P.length + p.length ≤ 16) : Inv E iv m O G (P ++ p) (s.clear p) := by
  have h1 : mid m P = [] := mid_nil (Or.inr (by omega))
  have h2 : mid m (P ++ p) = [] := mid_nil (Or.inr (by rw [List.length_append]; omega))
  have hm : 16 ≤ Nat.max 16 m := Nat.le_max_left _ _
  refine ⟨h.g, by simp only [S.clear, List.length_append, h.cur], h.max, fun hh => by rw [h2, ← h1]; exact h.evp hh, ?_⟩
  rw [S.clear, h.out, enc, enc, h1, h2, List.drop_of_length_le (l := P) (by omega), List.drop_of_length_le (l := P ++ p) (by rw [List.length_append]; omega), List.take_of_length_le (l := P) (by omega),
    List.take_of_length_le (l := P ++ p) (by rw [List.length_append]; omega), outs_nil]
  simp

theorem trail_inv {E : Cipher} {iv : List UInt8} {m : Nat} {O : List UInt8} {G : Prop} {P p : List UInt8} {s : S} (h : Inv E iv m O G P s) (h16 : 16 ≤ P.length) (hm : m ≤ P.length) : Inv E iv m O G (P ++ p) (s.clear p) := by
  have h1 : mid m (P ++ p) = mid m P := by unfold mid; rw [List.take_append_of_le_length hm]
  have hx : Nat.max 16 m ≤ P.length := Nat.max_le.2 ⟨h16, hm⟩
  refine ⟨h.g, by simp only [S.clear, List.length_append, h.cur], h.max, fun hh => by rw [h1]; exact h.evp hh, ?_⟩
  rw [S.clear, h.out, enc, enc, h1, List.take_append_of_le_length h16, List.drop_append_of_le_length hx]
  simp only [List.append_assoc]

theorem enc_inv {E : Cipher} {iv : List UInt8} {m : Nat} {O : List UInt8} {G : Prop} {P p : List UInt8} {s : S} (h : Inv E iv m O G P s) (h16 : 16 ≤ P.length) (hp : p ≠ []) (hm : P.length + p.length ≤ m) :
    Inv E iv m O G (P ++ p) { s with evp := (s.evp.update E p).1, cur := s.cur + p.length, out := s.out ++ (s.evp.update E p).2 } := by
  have hpl : 0 < p.length := List.length_pos_iff.2 hp
  have h1 : mid m (P ++ p) = mid m P ++ p := by
    unfold mid
    rw [List.take_of_length_le (l := P ++ p) (by rw [List.length_append]; omega), List.take_of_length_le (l := P) (by omega), List.drop_append_of_le_length h16]
  obtain ⟨u1, u2⟩ := update_at (h.evp (h.g (by omega))) p
  have hx : m ≤ Nat.max 16 m := Nat.le_max_right _ _
  refine ⟨h.g, by simp only [List.length_append, h.cur], h.max, fun _ => by rw [h1]; exact u1, ?_⟩
  simp only []
  rw [h.out, enc, enc, h1, ← u2, List.take_append_of_le_length h16, List.drop_of_length_le (l := P) (by omega), List.drop_of_length_le (l := P ++ p) (by rw [List.length_append]; omega)]
  simp only [List.append_assoc, List.append_nil]

theorem loop_inv {E : Cipher} {iv : List UInt8} {m : Nat} {O : List UInt8} {G : Prop} (hiv : iv.length = 16) : ∀ (f : Nat) (d P : List UInt8) (s : S), d.length ≤ f → Inv E iv m O G P s → 16 ≤ P.length → (d = [] ∨ P.length + d.length ≤ m) →
    ∃ s', encLoop E f s d = .ok s' ∧ Inv E iv m O G (P ++ d) s'
  | _, [], P, s, _, h, _, _ => ⟨s, by rw [encLoop], by rw [List.append_nil]; exact h⟩
  | 0, _ :: _, _, _, hf, _, _, _ => by rw [List.length_cons] at hf; omega
  | f + 1, b :: t, P, s, hf, h, h16, hm => by
    obtain ⟨d, hd⟩ : ∃ d, d = b :: t := ⟨_, rfl⟩
    have hdl : 0 < d.length := by rw [hd, List.length_cons]; omega
    have hm' : P.length + d.length ≤ m := by
      rcases hm with hm | hm
      · cases hm
      · rw [hd]; exact hm
    rw [encLoop, ← hd]
    rw [← hd] at hf
    have htl : (d.take 256).length = min 256 d.length := List.length_take
    have hne : d.take 256 ≠ [] := by intro hh; rw [hh, List.length_nil] at htl; omega
    have hi := enc_inv (p := d.take 256) h h16 hne (by omega)
    obtain ⟨-, u2⟩ := update_at (h.evp (h.g (by omega))) (d.take 256)
    have hlen := congrArg List.length u2
    rw [List.length_append, outs_length hiv, outs_length hiv, List.length_append] at hlen
    rw [if_neg (by omega)]
    obtain ⟨s', e1, e2⟩ := loop_inv hiv f (d.drop 256) (P ++ d.take 256) _ (by rw [List.length_drop]; omega) hi (by rw [List.length_append]; omega) (by
      right; rw [List.length_append, List.length_drop]; omega)
    rw [List.append_assoc, List.take_append_drop] at e2
    exact ⟨s', e1, e2⟩

theorem rest_inv {E : Cipher} {iv : List UInt8} {m : Nat} {O : List UInt8} {G : Prop} (hiv : iv.length = 16) {P d : List UInt8} {s : S} (h : Inv E iv m O G P s) (h16 : 16 ≤ P.length ∨ d = []) :
    ∃ s', s.rest E d = .ok s' ∧ Inv E iv m O G (P ++ d) s' := by
  rcases Nat.lt_or_ge P.length 16 with hlt | h16'
  · have : d = [] := by
      rcases h16 with h1 | h1
      · omega
      · exact h1
    subst this
    refine ⟨s.clear [], ?_, lead_inv h (by rw [List.length_nil]; omega)⟩
    simp [S.rest, encLoop]
  · unfold S.rest
    obtain ⟨k, hk⟩ : ∃ k, k = s.max - s.cur := ⟨_, rfl⟩
    rw [← hk]
    rw [h.max, h.cur] at hk
    have htl : (d.take k).length = min k d.length := List.length_take
    obtain ⟨s', e1, e2⟩ := loop_inv hiv d.length (d.take k) P s (by omega) h h16' (by
      rcases Nat.eq_zero_or_pos k with h0 | h0
      · left; rw [h0]; rfl
      · right; omega)
    rw [e1, Res.bind_ok]
    refine ⟨_, rfl, ?_⟩
    rcases Nat.lt_or_ge d.length k with h1 | h1
    · rw [List.take_of_length_le (by omega)] at e2
      rw [List.drop_of_length_le (by omega)]
      have : s'.clear [] = s' := by simp [S.clear]
      rw [this]
      exact e2
    · have := trail_inv (p := d.drop k) e2 (by rw [List.length_append]; omega) (by rw [List.length_append]; omega)
      rw [List.append_assoc, List.take_append_drop] at this
      exact this

theorem write_inv {E : Cipher} {iv : List UInt8} {m : Nat} {O : List UInt8} {G : Prop} (hiv : iv.length = 16) {P d : List UInt8} {s : S} (h : Inv E iv m O G P s) : ∃ s', s.write E d = .ok s' ∧ Inv E iv m O G (P ++ d) s' := by
  unfold S.write
  rw [h.cur]
  split
  · have htl : (d.take (16 - P.length)).length = min (16 - P.length) d.length := List.length_take
    have hl := lead_inv (p := d.take (16 - P.length)) h (by omega)
    obtain ⟨s', e1, e2⟩ := rest_inv hiv (d := d.drop (16 - P.length)) hl (by
      rcases Nat.lt_or_ge d.length (16 - P.length) with h1 | h1
      · right; exact List.drop_of_length_le (by omega)
      · left; rw [List.length_append]; omega)
    rw [List.append_assoc, List.take_append_drop] at e2
    exact ⟨s', e1, e2⟩
  · exact rest_inv hiv h (Or.inl (by omega))

theorem writes_inv {E : Cipher} {iv : List UInt8} {m : Nat} {O : List UInt8} {G : Prop} (hiv : iv.length = 16) : ∀ (l : List (List UInt8)) (P : List UInt8) (s : S), Inv E iv m O G P s → ∃ s', s.writes E l = .ok s' ∧ Inv E iv m O G (P ++ l.flatten) s'
  | [], P, s, h => ⟨s, rfl, by simpa using h⟩
  | d :: l, P, s, h => by
    obtain ⟨s1, e1, e2⟩ := write_inv hiv (d := d) h
    obtain ⟨s2, e3, e4⟩ := writes_inv hiv l _ s1 e2
    rw [List.append_assoc] at e4
    exact ⟨s2, by rw [S.writes, e1, Res.bind_ok, e3], by rw [List.flatten_cons]; exact e4⟩

/-- A player gets a frame back. -/
theorem enc_play {E : Cipher} {D : List UInt8 → List UInt8} (hD : Undoes D E.enc) {iv : List UInt8} (hiv : iv.length = 16) (F : List UInt8) :
    (enc E iv (F.length - F.length % 16) F).length = F.length ∧ play D iv (enc E iv (F.length - F.length % 16) F) = F := by
  obtain ⟨m, hm⟩ : ∃ m, m = F.length - F.length % 16 := ⟨_, rfl⟩
  rw [← hm, enc]
  obtain ⟨k, hk⟩ : ∃ k, k = (F.length - 16) / 16 := ⟨_, rfl⟩
  rcases Nat.lt_or_ge F.length 16 with hs | hs
  · have hx : 16 ≤ Nat.max 16 m := Nat.le_max_left _ _
    rw [mid_nil (Or.inr (by omega)), outs_nil, List.nil_append, List.drop_of_length_le (by omega), List.append_nil, List.take_of_length_le (by omega)]
    refine ⟨rfl, ?_⟩
    unfold play
    rw [show (F.length - 16) / 16 = 0 by omega, dec, List.nil_append, List.take_append_drop]
  · have hmk : m = 16 + 16 * k := by omega
    have hx : Nat.max 16 m = m := Nat.max_eq_right (by omega)
    have hmid : mid m F = (F.drop 16).take (16 * k) := by unfold mid; rw [hmk, List.drop_take]; congr 1; omega
    have hml : (mid m F).length = 16 * k := by rw [hmid, List.length_take, List.length_drop]; omega
    have hol : (outs E iv (mid m F)).length = 16 * k := by rw [outs_length hiv, hml]; omega
    have htl : (F.take 16).length = 16 := by rw [List.length_take]; omega
    rw [hx]
    obtain ⟨o, ho⟩ : ∃ o, o = F.take 16 ++ (outs E iv (mid m F) ++ F.drop m) := ⟨_, rfl⟩
    have hlen : o.length = F.length := by
      rw [ho, List.length_append, List.length_append, htl, hol, List.length_drop]; omega
    have t1 : o.take 16 = F.take 16 := by rw [ho, List.take_append_of_le_length (by omega), List.take_take]; simp
    have t2 : o.drop 16 = outs E iv (mid m F) ++ F.drop m := by rw [ho, List.drop_append_of_le_length (by omega), List.drop_of_length_le (by omega), List.nil_append]
    have t3 : o.drop (16 + 16 * k) = F.drop m := by
      rw [← List.drop_drop, t2, List.drop_append_of_le_length (by omega), List.drop_of_length_le (by omega), List.nil_append]
    rw [← ho]
    refine ⟨hlen, ?_⟩
    unfold play
    rw [hlen, ← hk, t1, t2, t3]
    have hout : outs E iv (mid m F) = (cbc E k iv (mid m F)).1 := by unfold outs; rw [hml, Nat.mul_div_cancel_left _ (by omega)]
    rw [hout, dec_cbc hD k iv (mid m F) _ hiv (by omega), List.take_of_length_le (l := mid m F) (by omega), hmid, hmk, ← List.drop_drop, List.take_append_drop, List.take_append_drop]

/-- C131: however the frame is cut, and whatever was encrypted before, the size does not change and a player gets the frame back. -/
theorem frame_play {E : Cipher} {D : List UInt8 → List UInt8} (hD : Undoes D E.enc) {iv : List UInt8} (hiv : iv.length = 16) (e : Evp) (parts : List (List UInt8)) :
    ∃ o, frame E iv e parts = .ok o ∧ o.length = parts.flatten.length ∧ play D iv o = parts.flatten := by
  obtain ⟨F, hF⟩ : ∃ F, F = parts.flatten := ⟨_, rfl⟩
  obtain ⟨m, hm⟩ : ∃ m, m = F.length - F.length % 16 := ⟨_, rfl⟩
  have h0 : Inv E iv m [] (16 < m) [] (start iv e F.length) := by
    refine ⟨id, rfl, hm.symm, fun hh => ?_, ?_⟩
    · rw [mid_nil (Or.inr (by simp))]
      unfold start
      rw [← hm, if_pos hh]
      exact at_init E iv
    · rw [enc, mid_nil (Or.inr (by simp)), outs_nil]
      simp [start]
  obtain ⟨s', e1, e2⟩ := writes_inv hiv parts [] _ h0
  rw [List.nil_append, ← hF] at e2
  refine ⟨s'.out, by rw [frame, ← hF, e1, Res.map_ok], ?_⟩
  rw [← hF, e2.out, List.nil_append, hm]
  exact enc_play hD hiv F

end Verif.FrameEnc
