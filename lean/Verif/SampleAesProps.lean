import Verif.SampleAes
import Verif.SampleAesSpec
import Verif.CbcProps
import Verif.RbspProps

/-!
# SAMPLE-AES of H.264: proofs
-/

namespace Verif.SampleAes

open Verif.Cenc (Cipher)
open Verif.Cbc Verif.CbcSpec Verif.RbspSpec Verif.SampleAesSpec

/-! ## Emulation prevention -/

theorem ep_cons (z : Nat) (b : UInt8) (t : List UInt8) : ep z (b :: t) = ((ep z [b]).1 ++ (ep (ep z [b]).2 t).1, (ep (ep z [b]).2 t).2) := by
  rw [ep, ep]
  split
  · simp [ep]
  · split <;> simp [ep]

theorem ep_append : ∀ (a b : List UInt8) (z : Nat), ep z (a ++ b) = ((ep z a).1 ++ (ep (ep z a).2 b).1, (ep (ep z a).2 b).2)
  | [], b, z => by simp [ep]
  | x :: a, b, z => by
    rw [List.cons_append, ep_cons, ep_append a b, ep_cons z x a]
    simp

theorem ep_esc : ∀ (l : List UInt8) (z : Nat), z ≤ 2 → (ep z l).1 = esc z l
  | [], _, _ => rfl
  | b :: t, z, hz => by
    unfold ep esc
    have i1 := ep_esc t 1 (by omega)
    have i0 := ep_esc t 0 (by omega)
    by_cases h2 : z < 2
    · have i2 := ep_esc t (z + 1) (by omega)
      have hn : ¬ (2 ≤ z ∧ b.toNat ≤ 3) := by omega
      by_cases hb : b = 0 <;> simp_all
    · have : z = 2 := by omega
      subst this
      by_cases h4 : b.toNat / 4 = 0
      · have h3 : b.toNat ≤ 3 := by omega
        by_cases hb : b = 0 <;> simp_all
      · have h3 : ¬ b.toNat ≤ 3 := by omega
        have hb : b ≠ 0 := by rintro rfl; exact h4 rfl
        simp [h4, h3, hb, i0]

/-! ## Bytes one by one -/

/-- A part of a block, when there is no error. -/
def blockP (E : Cipher) (s : S) (p : List UInt8) : S :=
  if (s.evp.update E p).2 = [] then { s with cur := s.cur + p.length, evp := (s.evp.update E p).1 }
  else { s with cur := s.cur + p.length, evp := (s.evp.update E p).1, zr := (ep s.zr (s.evp.update E p).2).2, out := s.out ++ (ep s.zr (s.evp.update E p).2).1, next := s.after }

def step (E : Cipher) (s : S) (b : UInt8) : S := if s.cur < s.next then s.clear [b] else blockP E s [b]

theorem clear_clear (s : S) (a b : List UInt8) : (s.clear a).clear b = s.clear (a ++ b) := by
  unfold S.clear
  simp only [ep_append, List.length_append, List.append_assoc, Nat.add_assoc]

theorem clear_nil (s : S) : s.clear [] = s := by simp [S.clear, ep]

theorem clear_fold (E : Cipher) : ∀ (p : List UInt8) (s : S), s.cur + p.length ≤ s.next → p.foldl (step E) s = s.clear p
  | [], s, _ => (clear_nil s).symm
  | b :: t, s, h => by
    rw [List.length_cons] at h
    rw [List.foldl_cons, step, if_pos (by omega), clear_fold E t (s.clear [b]) (by show s.cur + 1 + t.length ≤ s.next; omega), clear_clear]
    rfl

theorem update_few (E : Cipher) (e : Evp) (p : List UInt8) (h : e.pend.length + p.length < 16) : e.update E p = (⟨e.chain, e.pend ++ p⟩, []) := by
  unfold Evp.update
  rw [show (e.pend ++ p).length / 16 = 0 by rw [List.length_append]; omega]
  simp [cbc]

theorem update_block (E : Cipher) (e : Evp) (p : List UInt8) (h : e.pend.length + p.length = 16) :
    e.update E p = (⟨E.enc (Cbc.xorB (e.pend ++ p) e.chain), []⟩, E.enc (Cbc.xorB (e.pend ++ p) e.chain)) := by
  unfold Evp.update
  rw [show (e.pend ++ p).length / 16 = 1 by rw [List.length_append]; omega]
  have hl : (e.pend ++ p).length = 16 := by rw [List.length_append]; omega
  simp only [cbc]
  rw [List.take_of_length_le (by omega), List.append_nil, List.drop_of_length_le (by omega)]

theorem block_fold (E : Cipher) : ∀ (p : List UInt8) (s : S), p ≠ [] → s.next ≤ s.cur → s.evp.pend.length = s.cur - s.next → s.cur + p.length ≤ s.next + 16 → p.foldl (step E) s = blockP E s p
  | [], _, h, _, _, _ => absurd rfl h
  | [b], s, _, h1, _, _ => by
    rw [List.foldl_cons, List.foldl_nil, step, if_neg (by omega)]
  | b :: c :: t, s, _, h1, h2, h3 => by
    simp only [List.length_cons] at h3
    have hu := update_few E s.evp [b] (by rw [List.length_singleton]; omega)
    have hs : step E s b = { s with cur := s.cur + 1, evp := ⟨s.evp.chain, s.evp.pend ++ [b]⟩ } := by
      rw [step, if_neg (by omega), blockP, hu, if_pos rfl]
      rfl
    rw [List.foldl_cons, hs, block_fold E (c :: t) _ (by simp) (by simp only []; omega) (by simp only [List.length_append, List.length_singleton]; omega) (by simp only [List.length_cons]; omega)]
    have he : ∀ q : List UInt8, (⟨s.evp.chain, s.evp.pend ++ [b]⟩ : Evp).update E q = s.evp.update E (b :: q) := by
      intro q
      unfold Evp.update
      simp only [List.append_assoc, List.singleton_append]
    unfold blockP
    simp only [he, List.length_cons, S.after]
    rw [show s.cur + 1 + (t.length + 1) = s.cur + (t.length + 1 + 1) by omega]

/-- Between parts. `n` is the end of the unit. -/
structure Inv (n : Nat) (s : S) : Prop where
  size : n + 176 < 2 ^ 32
  chain : s.evp.chain.length = 16
  pos : s.cur ≤ n
  ph : (s.cur < s.next ∧ s.evp.pend = []) ∨ (s.next ≤ s.cur ∧ s.cur < s.next + 16 ∧ s.evp.pend.length = s.cur - s.next)

theorem block_inv {E : Cipher} {n : Nat} {s : S} {p : List UInt8} (h : Inv n s) (hn : ¬ s.cur < s.next) (hp : s.cur + p.length ≤ s.next + 16) (hl : s.cur + p.length ≤ n) :
    s.block E p = .ok (blockP E s p) ∧ Inv n (blockP E s p) := by
  have hph : s.next ≤ s.cur ∧ s.cur < s.next + 16 ∧ s.evp.pend.length = s.cur - s.next := by
    rcases h.ph with ⟨h1, -⟩ | h1
    · exact absurd h1 hn
    · exact h1
  obtain ⟨h1, h2, h3⟩ := hph
  have hsz := h.size
  rcases Nat.lt_or_ge (s.cur + p.length) (s.next + 16) with hlt | hge
  · have hu := update_few E s.evp p (by omega)
    unfold S.block blockP
    rw [hu]
    rw [if_neg (by simp), if_pos rfl, if_pos rfl]
    refine ⟨rfl, hsz, h.chain, hl, Or.inr ⟨by simp only []; omega, by simp only []; omega, by simp only [List.length_append]; omega⟩⟩
  · have hu := update_block E s.evp p (by omega)
    have hel : (E.enc (Cbc.xorB (s.evp.pend ++ p) s.evp.chain)).length = 16 := E.len _ (xorB_length (by rw [List.length_append]; omega) h.chain)
    have hne : E.enc (Cbc.xorB (s.evp.pend ++ p) s.evp.chain) ≠ [] := by intro hh; rw [hh] at hel; simp at hel
    unfold S.block blockP
    rw [hu]
    simp only []
    rw [if_neg (by omega), if_neg hne, if_neg hne]
    refine ⟨rfl, hsz, hel, hl, Or.inl ⟨?_, rfl⟩⟩
    simp only [S.after]
    split <;> omega

theorem loop_fold (E : Cipher) {n : Nat} : ∀ (f : Nat) (d : List UInt8) (s : S), d.length ≤ f → Inv n s → s.cur + d.length ≤ n → loop E f s d = .ok (d.foldl (step E) s) ∧ Inv n (d.foldl (step E) s) ∧ (d.foldl (step E) s).cur = s.cur + d.length
  | f, [], s, _, h, _ => by
    rw [loop]
    exact ⟨rfl, h, rfl⟩
  | 0, b :: t, s, hf, _, _ => by rw [List.length_cons] at hf; omega
  | f + 1, b :: t, s, hf, h, hl => by
    obtain ⟨d, hd⟩ : ∃ d, d = b :: t := ⟨_, rfl⟩
    have hdl : 0 < d.length := by rw [hd, List.length_cons]; omega
    rw [loop, ← hd]
    rw [← hd] at hf hl
    by_cases hc : s.cur < s.next
    · rw [if_pos hc]
      obtain ⟨k, hk⟩ : ∃ k, k = s.next - s.cur := ⟨_, rfl⟩
      rw [← hk]
      have htl : (d.take k).length = min k d.length := List.length_take
      have hfold := clear_fold E (d.take k) s (by omega)
      have hpd : s.evp.pend = [] := by
        rcases h.ph with ⟨-, h1⟩ | ⟨h1, -⟩
        · exact h1
        · omega
      have hi : Inv n (s.clear (d.take k)) := by
        refine ⟨h.size, h.chain, by simp only [S.clear]; omega, ?_⟩
        rcases Nat.lt_or_ge (s.cur + (d.take k).length) s.next with h1 | h1
        · exact Or.inl ⟨h1, hpd⟩
        · exact Or.inr ⟨h1, by simp only [S.clear]; omega, by simp only [S.clear, hpd, List.length_nil]; omega⟩
      have hcur : (s.clear (d.take k)).cur = s.cur + (d.take k).length := rfl
      obtain ⟨e1, e2, e3⟩ := loop_fold E f (d.drop k) (s.clear (d.take k)) (by rw [List.length_drop]; omega) hi (by rw [hcur, List.length_drop]; omega)
      have hall : d.foldl (step E) s = (d.drop k).foldl (step E) (s.clear (d.take k)) := by
        conv => lhs; rw [← List.take_append_drop k d]
        rw [List.foldl_append, hfold]
      rw [hall]
      exact ⟨e1, e2, by rw [e3, hcur, List.length_drop]; omega⟩
    · rw [if_neg hc]
      have hph : s.next ≤ s.cur ∧ s.cur < s.next + 16 ∧ s.evp.pend.length = s.cur - s.next := by
        rcases h.ph with ⟨h1, -⟩ | h1
        · exact absurd h1 hc
        · exact h1
      obtain ⟨k, hk⟩ : ∃ k, k = s.next + 16 - s.cur := ⟨_, rfl⟩
      rw [← hk]
      have htl : (d.take k).length = min k d.length := List.length_take
      have hne : d.take k ≠ [] := by
        intro hh
        rw [hh, List.length_nil] at htl
        omega
      have hfold := block_fold E (d.take k) s hne hph.1 hph.2.2 (by omega)
      obtain ⟨b1, b2⟩ := block_inv (E := E) h hc (p := d.take k) (by omega) (by omega)
      have hcur : (blockP E s (d.take k)).cur = s.cur + (d.take k).length := by unfold blockP; split <;> rfl
      obtain ⟨e1, e2, e3⟩ := loop_fold E f (d.drop k) (blockP E s (d.take k)) (by rw [List.length_drop]; omega) b2 (by rw [hcur, List.length_drop]; omega)
      have hall : d.foldl (step E) s = (d.drop k).foldl (step E) (blockP E s (d.take k)) := by
        conv => lhs; rw [← List.take_append_drop k d]
        rw [List.foldl_append, hfold]
      rw [hall, b1, Res.bind_ok]
      exact ⟨e1, e2, by rw [e3, hcur, List.length_drop]; omega⟩

theorem step_enc (E : Cipher) (s : S) (b : UInt8) : (step E s b).encrypt = s.encrypt := by
  unfold step S.clear blockP
  split
  · rfl
  · split <;> rfl

theorem fold_enc (E : Cipher) : ∀ (d : List UInt8) (s : S), (d.foldl (step E) s).encrypt = s.encrypt
  | [], _ => rfl
  | b :: t, s => by rw [List.foldl_cons, fold_enc E t, step_enc]

theorem writes_fold (E : Cipher) {n : Nat} : ∀ (l : List (List UInt8)) (s : S), s.encrypt = true → Inv n s → s.cur + l.flatten.length ≤ n → s.writes E l = .ok (l.flatten.foldl (step E) s)
  | [], s, _, _, _ => rfl
  | d :: l, s, he, h, hl => by
    rw [List.flatten_cons, List.length_append] at hl
    obtain ⟨e1, e2, e3⟩ := loop_fold E d.length d s (Nat.le_refl _) h (by omega)
    rw [S.writes, S.write, if_pos he, e1, Res.bind_ok, writes_fold E l _ (by rw [fold_enc]; exact he) e2 (by rw [e3]; omega), List.flatten_cons, List.foldl_append]

theorem writes_clear (E : Cipher) : ∀ (l : List (List UInt8)) (s : S), s.encrypt = false → ∃ s', s.writes E l = .ok s' ∧ s'.out = s.out ++ l.flatten
  | [], s, _ => ⟨s, rfl, by simp⟩
  | d :: l, s, he => by
    obtain ⟨s', e1, e2⟩ := writes_clear E l { s with out := s.out ++ d } he
    refine ⟨s', ?_, by rw [e2, List.flatten_cons, List.append_assoc]⟩
    rw [S.writes, S.write, if_neg (by rw [he]; simp), Res.bind_ok, e1]

/-! ## The pattern -/

/-- What comes out behind the clear start. -/
def enc (E : Cipher) : Nat → List UInt8 → List UInt8 → List UInt8
  | 0, _, d => d
  | f + 1, c, d => if 16 < d.length then E.enc (Cbc.xorB (d.take 16) c) ++ ((d.drop 16).take 144 ++ enc E f (E.enc (Cbc.xorB (d.take 16) c)) (d.drop 160)) else d

theorem enc_short (E : Cipher) (f : Nat) (c d : List UInt8) (h : d.length ≤ 16) : enc E f c d = d := by
  cases f with
  | zero => rfl
  | succ f => rw [enc, if_neg (by omega)]

theorem pattern (E : Cipher) : ∀ (f : Nat) (d : List UInt8) (s : S), d.length ≤ f → 16 < d.length → s.cur = s.next → s.evp.pend = [] → s.evp.chain.length = 16 → s.max = s.cur + d.length - 16 → s.cur + d.length + 176 < 2 ^ 32 →
    (d.foldl (step E) s).out = s.out ++ (ep s.zr (enc E f s.evp.chain d)).1 := by
  intro f
  induction f with
  | zero => intro d s hf h16; omega
  | succ f ih =>
    intro d s hf h16 hc hp hch hm hn
    rw [enc, if_pos h16]
    have htl : (d.take 16).length = 16 := by rw [List.length_take]; omega
    have hfold := block_fold E (d.take 16) s (by intro hh; rw [hh] at htl; simp at htl) (by omega) (by rw [hp, List.length_nil]; omega) (by omega)
    have hu := update_block E s.evp (d.take 16) (by rw [hp, htl]; rfl)
    rw [hp, List.nil_append] at hu
    obtain ⟨y, hy⟩ : ∃ y, y = E.enc (Cbc.xorB (d.take 16) s.evp.chain) := ⟨_, rfl⟩
    rw [← hy] at hu ⊢
    have hall : d.foldl (step E) s = (d.drop 16).foldl (step E) (blockP E s (d.take 16)) := by
      conv => lhs; rw [← List.take_append_drop 16 d]
      rw [List.foldl_append, hfold]
    rw [hall]
    have hyl : y.length = 16 := by rw [hy]; exact E.len _ (xorB_length htl hch)
    have hy0 : y ≠ [] := by intro hh; rw [hh] at hyl; simp at hyl
    have hb : blockP E s (d.take 16) = { s with cur := s.cur + 16, evp := ⟨y, []⟩, zr := (ep s.zr y).2, out := s.out ++ (ep s.zr y).1, next := s.after } := by
      unfold blockP
      rw [hu]
      simp only []
      rw [if_neg hy0, htl]
    rw [hb]
    have hdl : (d.drop 16).length = d.length - 16 := List.length_drop
    by_cases hmore : 176 < d.length
    · have haft : s.after = s.next + 160 := by
        unfold S.after
        rw [Nat.mod_eq_of_lt (by omega), if_neg (by omega)]
      have hsp : d.drop 16 = (d.drop 16).take 144 ++ d.drop 160 := by
        conv => lhs; rw [← List.take_append_drop 144 (d.drop 16), List.drop_drop]
      have htl2 : ((d.drop 16).take 144).length = 144 := by rw [List.length_take]; omega
      conv => lhs; rw [hsp]
      obtain ⟨q, hq⟩ : ∃ q : S, q = { s with cur := s.cur + 16, evp := ⟨y, []⟩, zr := (ep s.zr y).2, out := s.out ++ (ep s.zr y).1, next := s.after } := ⟨_, rfl⟩
      have q1 : q.cur = s.cur + 16 := by rw [hq]
      have q2 : q.next = s.next + 160 := by rw [hq]; exact haft
      have q3 : q.max = s.max := by rw [hq]
      have q4 : q.evp = ⟨y, []⟩ := by rw [hq]
      have q5 : q.zr = (ep s.zr y).2 := by rw [hq]
      have q6 : q.out = s.out ++ (ep s.zr y).1 := by rw [hq]
      rw [← hq]
      obtain ⟨m, hm'⟩ : ∃ m, m = (d.drop 16).take 144 := ⟨_, rfl⟩
      rw [← hm'] at htl2 ⊢
      rw [List.foldl_append, clear_fold E m q (by omega)]
      have c1 : (q.clear m).cur = q.cur + m.length := rfl
      have c2 : (q.clear m).next = q.next := rfl
      have c3 : (q.clear m).max = q.max := rfl
      have c4 : (q.clear m).evp = q.evp := rfl
      rw [ih (d.drop 160) (q.clear m) (by rw [List.length_drop]; omega) (by rw [List.length_drop]; omega) (by omega) (by rw [c4, q4]) (by rw [c4, q4]; exact hyl)
        (by rw [c1, c3, List.length_drop]; omega) (by rw [c1, List.length_drop]; omega), c4, q4]
      simp only [S.clear, q5, q6, ep_append, List.append_assoc]
    · have haft : s.after = 2 ^ 32 - 1 := by
        unfold S.after
        rw [Nat.mod_eq_of_lt (by omega), if_pos (by omega)]
      rw [clear_fold E _ _ (by simp only [haft, hdl]; omega), enc_short E _ _ _ (by rw [List.length_drop]; omega)]
      have hsp : (d.drop 16).take 144 ++ d.drop 160 = d.drop 16 := by
        conv => rhs; rw [← List.take_append_drop 144 (d.drop 16), List.drop_drop]
      rw [hsp]
      simp only [S.clear, ep_append, List.append_assoc]

theorem enc_length (E : Cipher) : ∀ (f : Nat) (c d : List UInt8), c.length = 16 → (enc E f c d).length = d.length
  | 0, _, _, _ => rfl
  | f + 1, c, d, hc => by
    rw [enc]
    split
    · have hy : (E.enc (Cbc.xorB (d.take 16) c)).length = 16 := E.len _ (xorB_length (by rw [List.length_take]; omega) hc)
      simp only [List.length_append, hy, enc_length E f _ _ hy, List.length_take, List.length_drop]
      omega
    · rfl

theorem dec_enc {E : Cipher} {D : List UInt8 → List UInt8} (hD : Undoes D E.enc) : ∀ (f g : Nat) (c d : List UInt8), c.length = 16 → d.length ≤ f → d.length ≤ g → blocks D g c (enc E f c d) = d
  | 0, g, c, d, _, h, _ => by
    have : d = [] := List.eq_nil_of_length_eq_zero (by omega)
    subst this
    cases g with
    | zero => rfl
    | succ g => rw [blocks, if_neg (by simp [enc]), enc]
  | f + 1, 0, c, d, _, _, h => by
    have : d = [] := List.eq_nil_of_length_eq_zero (by omega)
    subst this
    rw [blocks, enc, if_neg (by simp)]
  | f + 1, g + 1, c, d, hc, hf, hg => by
    have hl := enc_length E (f + 1) c d hc
    rw [blocks, hl]
    by_cases h16 : 16 < d.length
    · rw [if_pos h16, enc, if_pos h16]
      have hxl : (Cbc.xorB (d.take 16) c).length = 16 := xorB_length (by rw [List.length_take]; omega) hc
      have hy : (E.enc (Cbc.xorB (d.take 16) c)).length = 16 := E.len _ hxl
      obtain ⟨y, hyy⟩ : ∃ y, y = E.enc (Cbc.xorB (d.take 16) c) := ⟨_, rfl⟩
      have hx : CbcSpec.xorB (D y) c = d.take 16 := by
        rw [hyy, hD _ hxl, xor_back (by rw [List.length_take]; omega)]
      rw [← hyy] at hy ⊢
      obtain ⟨r, hr⟩ : ∃ r, r = enc E f y (d.drop 160) := ⟨_, rfl⟩
      have h1 : (y ++ ((d.drop 16).take 144 ++ enc E f y (d.drop 160))).take 16 = y := by rw [← hy, List.take_left]
      have h2 : (y ++ ((d.drop 16).take 144 ++ enc E f y (d.drop 160))).drop 16 = (d.drop 16).take 144 ++ enc E f y (d.drop 160) := by rw [← hy, List.drop_left]
      have h3 : ((d.drop 16).take 144 ++ enc E f y (d.drop 160)).take 144 = (d.drop 16).take 144 ∧ ((d.drop 16).take 144 ++ enc E f y (d.drop 160)).drop 144 = enc E f y (d.drop 160) := by
        rcases Nat.lt_or_ge d.length 160 with hs | hs
        · have : d.drop 160 = [] := List.drop_of_length_le (by omega)
          rw [this, enc_short E f y [] (by simp), List.append_nil, List.take_take, List.drop_take]
          simp
        · have hq : ((d.drop 16).take 144).length = 144 := by rw [List.length_take, List.length_drop]; omega
          exact ⟨by rw [List.take_append_of_le_length (by omega), List.take_of_length_le (by omega)], by rw [List.drop_append_of_le_length (by omega), List.drop_of_length_le (by omega), List.nil_append]⟩
      rw [h1, h2, h3.1, hx, show 160 = 16 + 144 from rfl, ← List.drop_drop, h2, h3.2, dec_enc hD f g y (d.drop 160) hy (by rw [List.length_drop]; omega) (by rw [List.length_drop]; omega)]
      rw [show d.drop 160 = (d.drop 16).drop 144 by rw [List.drop_drop], List.take_append_drop, List.take_append_drop]
    · rw [if_neg h16, enc, if_neg h16]

/-! ## Start codes -/

def Safe : Nat → List UInt8 → Prop
  | _, [] => True
  | z, b :: t => (2 ≤ z → 3 ≤ b.toNat) ∧ Safe (if b = 0 then z + 1 else 0) t

theorem esc_safe : ∀ (l : List UInt8) (z : Nat), Safe z (esc z l)
  | [], _ => trivial
  | b :: t, z => by
    rw [esc]
    split
    · refine ⟨fun _ => by decide, ?_⟩
      rw [if_neg (by decide)]
      exact ⟨fun h => by omega, esc_safe t _⟩
    · next h => exact ⟨fun hz => by omega, esc_safe t _⟩

theorem safe_append : ∀ (a r : List UInt8) (z : Nat), Safe z (a ++ r) → ∃ z', Safe z' r
  | [], _, z, h => ⟨z, h⟩
  | _ :: a, r, _, h => safe_append a r _ h.2

theorem safe_noStart {l : List UInt8} {z : Nat} (h : Safe z l) : NoStart l := by
  rintro x hx ⟨a, b, rfl⟩
  rw [List.append_assoc] at h
  obtain ⟨z', -, -, h3, -⟩ := safe_append a _ z h
  have := h3 (by simp)
  omega

theorem esc_len : ∀ (l : List UInt8) (z : Nat), l.length ≤ (esc z l).length
  | [], _ => Nat.le_refl _
  | b :: t, z => by
    rw [esc]
    split
    · have := esc_len t (if b = 0 then 1 else 0)
      simp only [List.length_cons]; omega
    · have := esc_len t (if b = 0 then z + 1 else 0)
      simp only [List.length_cons]; omega

theorem esc_head (l : List UInt8) : (esc 0 l).headD 0 = l.headD 0 := by
  cases l with
  | nil => rfl
  | cons b t => rw [esc, if_neg (by omega)]; rfl

/-! ## Units -/

/-- What is written for a slice. -/
theorem unit_enc (E : Cipher) {iv : List UInt8} {parts : List (List UInt8)} (hiv : iv.length = 16) (hn : parts.flatten.length + 176 < 2 ^ 32)
    (ht : (parts.flatten.headD 0).toNat % 32 = 1 ∨ (parts.flatten.headD 0).toNat % 32 = 5) (hl : 48 < parts.flatten.length) :
    unit E iv parts = .ok (esc 0 (parts.flatten.take 32 ++ enc E parts.flatten.length iv (parts.flatten.drop 32))) := by
  obtain ⟨u, hu⟩ : ∃ u, u = parts.flatten := ⟨_, rfl⟩
  have hst : start iv parts.flatten = ⟨true, 0, 32, parts.flatten.length - 16, 0, Evp.init iv, []⟩ := by
    rw [start, if_neg (by omega)]
  have hinv : Inv parts.flatten.length (⟨true, 0, 32, parts.flatten.length - 16, 0, Evp.init iv, []⟩ : S) := ⟨hn, hiv, Nat.zero_le _, Or.inl ⟨by simp, rfl⟩⟩
  rw [unit, hst, writes_fold E parts _ rfl hinv (by simp only []; omega), Res.map_ok, ← hu]
  rw [← hu] at hn hl
  have htl : (u.take 32).length = 32 := by rw [List.length_take]; omega
  obtain ⟨q, hq⟩ : ∃ q : S, q = ⟨true, 0, 32, u.length - 16, 0, Evp.init iv, []⟩ := ⟨_, rfl⟩
  have hall : u.foldl (step E) q = (u.drop 32).foldl (step E) (q.clear (u.take 32)) := by
    conv => lhs; rw [← List.take_append_drop 32 u]
    rw [List.foldl_append, clear_fold E (u.take 32) q (by rw [hq, htl]; simp)]
  rw [← hq, hall]
  have hdl : (u.drop 32).length = u.length - 32 := List.length_drop
  have c1 : (q.clear (u.take 32)).cur = 32 := by rw [hq]; simp only [S.clear, htl]
  have c2 : (q.clear (u.take 32)).next = 32 := by rw [hq]; rfl
  have c3 : (q.clear (u.take 32)).max = u.length - 16 := by rw [hq]; rfl
  have c4 : (q.clear (u.take 32)).evp = Evp.init iv := by rw [hq]; rfl
  rw [pattern E u.length (u.drop 32) (q.clear (u.take 32)) (by omega) (by omega) (by omega) (by rw [c4]; rfl) (by rw [c4]; exact hiv) (by omega) (by omega), c4]
  rw [← ep_esc _ 0 (by omega), ep_append, hq]
  simp only [S.clear, List.nil_append]
  rfl

/-- C130: however the unit is cut, a player gets the unit back. -/
theorem unit_play {E : Cipher} {D : List UInt8 → List UInt8} (hD : Undoes D E.enc) {iv : List UInt8} {parts : List (List UInt8)} (hiv : iv.length = 16) (hn : parts.flatten.length + 176 < 2 ^ 32) :
    ∃ o, unit E iv parts = .ok o ∧ play D iv o = parts.flatten ∧ (NoStart parts.flatten → NoStart o) := by
  obtain ⟨u, hu⟩ : ∃ u, u = parts.flatten := ⟨_, rfl⟩
  by_cases h : ((u.headD 0).toNat % 32 = 1 ∨ (u.headD 0).toNat % 32 = 5) ∧ 48 < u.length
  · rw [hu] at h
    refine ⟨_, unit_enc E hiv hn h.1 h.2, ?_, fun _ => safe_noStart (esc_safe _ _)⟩
    rw [← hu] at h ⊢
    obtain ⟨w, hw⟩ : ∃ w, w = u.take 32 ++ enc E u.length iv (u.drop 32) := ⟨_, rfl⟩
    rw [← hw]
    have htl : (u.take 32).length = 32 := by rw [List.length_take]; omega
    have hwl : w.length = u.length := by
      rw [hw, List.length_append, enc_length E _ _ _ hiv, htl, List.length_drop]; omega
    have hwh : w.headD 0 = u.headD 0 := by
      rw [hw]
      cases u with
      | nil => simp at h
      | cons b t => rfl
    have hel := esc_len w 0
    have t1 : w.take 32 = u.take 32 := by rw [hw, List.take_append_of_le_length (by omega), List.take_take]; simp
    have t2 : w.drop 32 = enc E u.length iv (u.drop 32) := by rw [hw, List.drop_append_of_le_length (by omega), List.drop_of_length_le (by omega), List.nil_append]
    rw [play, esc_head, hwh, if_pos ⟨h.1, by omega⟩, Verif.Rbsp.unesc_esc, hwl, t1, t2,
      dec_enc hD _ _ _ _ hiv (by rw [List.length_drop]; omega) (by rw [List.length_drop]; omega), List.take_append_drop]
  · obtain ⟨s', e1, e2⟩ := writes_clear E parts ⟨false, 0, 0, 0, 0, Evp.init iv, []⟩ rfl
    rw [List.nil_append] at e2
    have hst : start iv parts.flatten = ⟨false, 0, 0, 0, 0, Evp.init iv, []⟩ := by
      rw [start, ← hu, if_pos (by omega)]
    refine ⟨s'.out, by rw [unit, hst, e1, Res.map_ok], ?_, fun h' => by rw [e2]; exact h'⟩
    rw [e2, ← hu, play, if_neg h]

end Verif.SampleAes
