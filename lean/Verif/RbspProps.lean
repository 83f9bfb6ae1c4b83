import Verif.Rbsp
import Verif.RbspSpec

/-!
# Emulation prevention: proofs
-/

namespace Verif.Rbsp

open Verif.RbspSpec

theorem strip_ne {c : UInt8} (h : c ≠ 0) (t : List UInt8) : strip (c :: t) = c :: strip t := by
  rcases t with _ | ⟨a, _ | ⟨b, t⟩⟩
  · rfl
  · rfl
  · rw [strip, if_neg (fun hh => h hh.1)]

theorem strip_zero {c : UInt8} (h : c ≠ 0) (t : List UInt8) : strip (0 :: c :: t) = 0 :: c :: strip t := by
  rcases t with _ | ⟨b, t⟩
  · rfl
  · rw [strip, if_neg (fun hh => h hh.2.1), strip_ne h]

theorem unesc_more : ∀ (l : List UInt8) (z : Nat), 2 ≤ z → unesc z l = unesc 2 l
  | [], _, _ => rfl
  | b :: t, z, h => by
    unfold unesc
    by_cases h3 : b = 3
    · rw [if_pos ⟨h, h3⟩, if_pos ⟨Nat.le_refl _, h3⟩]
    · rw [if_neg (show ¬ (2 ≤ z ∧ b = 3) from fun hh => h3 hh.2), if_neg (show ¬ (2 ≤ 2 ∧ b = 3) from fun hh => h3 hh.2)]
      by_cases h0 : b = 0
      · rw [if_pos h0, if_pos h0, unesc_more t (z + 1) (by omega), unesc_more t (2 + 1) (by omega)]
      · rw [if_neg h0, if_neg h0]

theorem strip_spec : ∀ (n : Nat) (l : List UInt8), l.length ≤ n → strip l = unesc 0 l ∧ strip (0 :: l) = 0 :: unesc 1 l ∧ strip (0 :: 0 :: l) = 0 :: 0 :: unesc 2 l
  | _, [], _ => ⟨rfl, rfl, rfl⟩
  | 0, _ :: _, h => by simp at h
  | n + 1, c :: t, h => by
    obtain ⟨i0, i1, i2⟩ := strip_spec n t (by simp at h; omega)
    have u : ∀ z, z < 2 → unesc z (c :: t) = c :: unesc (if c = 0 then z + 1 else 0) t := by
      intro z hz
      rw [unesc, if_neg (by omega)]
    refine ⟨?_, ?_, ?_⟩
    · rw [u 0 (by omega)]
      by_cases h0 : c = 0
      · subst h0
        rw [i1, if_pos rfl]
      · rw [strip_ne h0, if_neg h0, i0]
    · rw [u 1 (by omega)]
      by_cases h0 : c = 0
      · subst h0
        rw [i2, if_pos rfl]
      · rw [strip_zero h0, if_neg h0, i0]
    · rw [strip]
      by_cases h3 : c = 3
      · rw [if_pos ⟨rfl, rfl, h3⟩, unesc, if_pos ⟨Nat.le_refl _, h3⟩, i0]
      · rw [if_neg (fun hh => h3 hh.2.2), unesc, if_neg (fun hh => h3 hh.2)]
        by_cases h0 : c = 0
        · subst h0
          rw [i2, if_pos rfl, unesc_more t 3 (by omega)]
        · rw [strip_zero h0, if_neg h0, i0]

theorem strip_id : ∀ (l : List UInt8), hasEsc l = false → strip l = l
  | [], _ => rfl
  | [_], _ => rfl
  | [_, _], _ => rfl
  | a :: b :: c :: t, h => by
    rw [hasEsc] at h
    by_cases hc : a = 0 ∧ b = 0 ∧ c = 3
    · rw [if_pos hc] at h
      cases h
    · rw [if_neg hc] at h
      rw [strip, if_neg hc, strip_id (b :: c :: t) h]

/-- C124: what the parser reads is the payload of the unit. -/
theorem decode_ok (b : List UInt8) : (decode b).1 = unesc 0 b := by
  unfold decode
  by_cases h : hasEsc b = true
  · rw [if_pos h]
    exact (strip_spec b.length b (Nat.le_refl _)).1
  · rw [if_neg h]
    rw [← (strip_spec b.length b (Nat.le_refl _)).1, strip_id b (by simpa using h)]

theorem unesc_esc : ∀ (r : List UInt8) (z : Nat), unesc z (esc z r) = r
  | [], _ => rfl
  | b :: t, z => by
    unfold esc
    by_cases h : 2 ≤ z ∧ b.toNat ≤ 3
    · rw [if_pos h, unesc, if_pos ⟨h.1, rfl⟩, unesc, if_neg (by omega), unesc_esc t]
    · rw [if_neg h, unesc, if_neg (by rintro ⟨h1, rfl⟩; exact h ⟨h1, by decide⟩), unesc_esc t]

theorem unesc_take : ∀ (l : List UInt8) (z m : Nat), unesc z (l.take m) <+: unesc z l
  | [], z, m => by simp
  | b :: t, z, 0 => by simp [unesc]
  | b :: t, z, m + 1 => by
    rw [List.take_succ_cons, unesc, unesc]
    split
    · exact unesc_take t _ _
    · exact (List.prefix_cons_inj _).2 (unesc_take t _ _)

/-- C124: a payload comes back from its unit, and a part of it from the start of the unit. -/
theorem decode_unit (r : List UInt8) (m : Nat) : (decode (esc 0 r)).1 = r ∧ (decode ((esc 0 r).take m)).1 <+: r := by
  refine ⟨by rw [decode_ok, unesc_esc], ?_⟩
  have := unesc_take (esc 0 r) 0 m
  rw [unesc_esc] at this
  rw [decode_ok]
  exact this

/-! ## Sizes of headers -/

theorem unesc_length : ∀ (l : List UInt8) (z : Nat), (unesc z l).length ≤ l.length
  | [], _ => Nat.le_refl _
  | b :: t, z => by
    unfold unesc
    split
    · have := unesc_length t 0
      simp only [List.length_cons]; omega
    · have := unesc_length t (if b = 0 then z + 1 else 0)
      simp only [List.length_cons]; omega

theorem esc_none : ∀ (r : List UInt8) (z m k : Nat), (unesc z ((esc z r).take m)).length = ((esc z r).take m).length → k ≤ ((esc z r).take m).length → (esc z (r.take k)).length = k
  | [], z, m, k, _, h => by simp [esc] at h ⊢; simp [h, esc]
  | b :: t, z, 0, k, _, h => by
    simp at h
    simp [h, esc]
  | b :: t, z, m + 1, k, hl, h => by
    cases k with
    | zero => simp [esc]
    | succ k =>
      rw [List.take_succ_cons]
      unfold esc at hl h ⊢
      by_cases hc : 2 ≤ z ∧ b.toNat ≤ 3
      · exfalso
        rw [if_pos hc, List.take_succ_cons, unesc, if_pos ⟨hc.1, rfl⟩, List.length_cons] at hl
        have := unesc_length ((b :: esc (if b = 0 then 1 else 0) t).take m) 0
        omega
      · rw [if_neg hc, List.take_succ_cons] at hl h
        rw [if_neg hc]
        rw [unesc, if_neg (by rintro ⟨h1, rfl⟩; exact hc ⟨h1, by decide⟩), List.length_cons, List.length_cons] at hl
        rw [List.length_cons] at h ⊢
        rw [esc_none t _ m k (by omega) (by omega)]

theorem count_ne {c : UInt8} (h : c ≠ 0) (t : List UInt8) : count (c :: t) = count t := by
  rcases t with _ | ⟨a, _ | ⟨b, t⟩⟩
  · rfl
  · rfl
  · rw [count, if_neg (fun hh => h hh.1)]

theorem count_zero {c : UInt8} (h : c ≠ 0) (t : List UInt8) : count (0 :: c :: t) = count t := by
  rcases t with _ | ⟨b, t⟩
  · rfl
  · rw [count, if_neg (fun hh => h hh.2.1), count_ne h]

theorem count_spec : ∀ (n : Nat) (l : List UInt8), l.length ≤ n →
    (¬ [0, 0, 0, 0] <:+: l → (esc 0 l).length = l.length + count l) ∧ (¬ [0, 0, 0, 0] <:+: 0 :: l → (esc 1 l).length = l.length + count (0 :: l)) ∧
      (¬ [0, 0, 0, 0] <:+: 0 :: 0 :: l → (esc 2 l).length = l.length + count (0 :: 0 :: l))
  | _, [], _ => ⟨fun _ => rfl, fun _ => rfl, fun _ => rfl⟩
  | 0, _ :: _, h => by simp at h
  | n + 1, c :: t, h => by
    obtain ⟨i0, i1, i2⟩ := count_spec n t (by simp at h; omega)
    have tl : ∀ {x : UInt8} {l : List UInt8}, ¬ [0, 0, 0, 0] <:+: x :: l → ¬ [0, 0, 0, 0] <:+: l := fun hn hi => hn (hi.trans (List.suffix_cons _ _).isInfix)
    have u : ∀ z, z < 2 → (esc z (c :: t)).length = (esc (if c = 0 then z + 1 else 0) t).length + 1 := by
      intro z hz
      rw [esc, if_neg (by omega), List.length_cons]
    refine ⟨?_, ?_, ?_⟩
    · intro hn
      rw [u 0 (by omega), List.length_cons]
      by_cases h0 : c = 0
      · subst h0
        rw [if_pos rfl, i1 hn]; omega
      · rw [if_neg h0, count_ne h0, i0 (tl hn)]; omega
    · intro hn
      rw [u 1 (by omega), List.length_cons]
      by_cases h0 : c = 0
      · subst h0
        rw [if_pos rfl, i2 hn]; omega
      · rw [if_neg h0, count_zero h0, i0 (tl (tl hn))]; omega
    · intro hn
      rw [count]
      by_cases h3 : c ≤ 3
      · have h3' : c.toNat ≤ 3 := by simpa using UInt8.le_iff_toNat_le.1 h3
        rw [if_pos ⟨rfl, rfl, h3⟩, esc, if_pos ⟨Nat.le_refl _, h3'⟩, List.length_cons, List.length_cons, List.length_cons]
        by_cases h0 : c = 0
        · subst h0
          rw [if_pos rfl]
          -- the byte after three zeros is not zero
          have i0' := i0 (tl (tl (tl hn)))
          have : (esc 1 t).length = (esc 0 t).length := by
            cases t with
            | nil => rfl
            | cons d t =>
              have hd : d ≠ 0 := by
                rintro rfl
                exact hn (List.prefix_append [0, 0, 0, 0] t).isInfix
              rw [esc, esc, if_neg (show ¬ (2 ≤ 1 ∧ d.toNat ≤ 3) by omega), if_neg (show ¬ (2 ≤ 0 ∧ d.toNat ≤ 3) by omega), if_neg hd, if_neg hd]
          omega
        · rw [if_neg h0, i0 (tl (tl (tl hn)))]; omega
      · have h3' : ¬ c.toNat ≤ 3 := fun hh => h3 (UInt8.le_iff_toNat_le.2 hh)
        have h0 : c ≠ 0 := by rintro rfl; exact h3 (by decide)
        rw [if_neg (fun hh => h3 hh.2.2), esc, if_neg (fun hh => h3' hh.2), if_neg h0, List.length_cons, List.length_cons, count_zero h0, i0 (tl (tl (tl hn)))]
        omega

theorem strip_lt : ∀ (l : List UInt8), hasEsc l = false → (unesc 0 l).length = l.length := by
  intro l h
  rw [← (strip_spec l.length l (Nat.le_refl _)).1, strip_id l h]

/-- C125 in part: the size of a header is that of its bytes in the unit, when no four zeros come together in the header. `r` is the payload of the unit, of which `m` bytes of the unit are seen. -/
theorem size_partial (r : List UInt8) (h m k : Nat) (hk : k ≤ (decode ((esc 0 r).take m)).1.length) (hz : ¬ [0, 0, 0, 0] <:+: r.take k) :
    headerSize h k ((esc 0 r).take m) = h + (esc 0 (r.take k)).length := by
  have hp := (decode_unit r m).2
  have hkr : k ≤ r.length := Nat.le_trans hk hp.length_le
  unfold headerSize
  have ht : ((decode ((esc 0 r).take m)).1).take k = r.take k := by
    obtain ⟨s, hs⟩ := hp
    conv => rhs; rw [← hs]
    rw [List.take_append_of_le_length hk]
  rw [ht]
  have hd := decode_ok ((esc 0 r).take m)
  by_cases he : hasEsc ((esc 0 r).take m) = true
  · have : (decode ((esc 0 r).take m)).2 = true := by unfold decode; rw [if_pos he]
    rw [if_pos this, (count_spec _ (r.take k) (Nat.le_refl _)).1 hz, List.length_take]
    omega
  · have : (decode ((esc 0 r).take m)).2 = false := by unfold decode; rw [if_neg he]
    have hl := strip_lt _ (by simpa using he)
    rw [this, if_neg (by simp), esc_none r 0 m k hl (by rw [← hl, ← hd]; exact hk)]
    omega

/-- The bytes of the header are the start of the unit. -/
theorem esc_take : ∀ (r : List UInt8) (z k : Nat), esc z (r.take k) <+: esc z r
  | [], z, k => by simp
  | b :: t, z, 0 => by simp [esc]
  | b :: t, z, k + 1 => by
    rw [List.take_succ_cons, esc, esc]
    split
    · exact (List.prefix_cons_inj _).2 ((List.prefix_cons_inj _).2 (esc_take t _ _))
    · exact (List.prefix_cons_inj _).2 (esc_take t _ _)

end Verif.Rbsp
