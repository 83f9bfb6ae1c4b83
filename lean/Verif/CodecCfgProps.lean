import Verif.CodecCfg
import Verif.CodecCfgSpec

/-!
# Codec configuration records: proofs
-/

namespace Verif.CodecCfg

open Verif.CodecCfgSpec

theorem be16_num {n : Nat} (h : n < 65536) : be16 (UInt8.ofNat (n / 256)) (UInt8.ofNat (n % 256)) = n := by
  unfold be16
  rw [UInt8.toNat_ofNat', UInt8.toNat_ofNat']
  omega

theorem num_be16 (h l : UInt8) : num (be16 h l) = [h, l] ∧ be16 h l < 65536 := by
  have h1 := h.toNat_lt
  have h2 := l.toNat_lt
  refine ⟨?_, by unfold be16; omega⟩
  unfold num be16
  rw [show (h.toNat * 256 + l.toNat) / 256 = h.toNat by omega, show (h.toNat * 256 + l.toNat) % 256 = l.toNat by omega, UInt8.ofNat_toNat, UInt8.ofNat_toNat]

theorem units_cons (u : List UInt8) (us : List (List UInt8)) : units (u :: us) = num u.length ++ (u ++ units us) := by simp [units]

theorem stream_cons (u : List UInt8) (us : List (List UInt8)) : stream (u :: us) = 0 :: 0 :: 0 :: 1 :: (u ++ stream us) := by simp [stream]

theorem stream_append (us vs : List (List UInt8)) : stream (us ++ vs) = stream us ++ stream vs := by simp [stream]

theorem units_spec : ∀ (us : List (List UInt8)) (s : Nat) (t : List UInt8), Small us →
    unitsSize us.length s (units us ++ t) = some (s + (stream us).length, t) ∧ unitsWrite us.length (units us ++ t) = .ok (stream us, t)
  | [], s, t, _ => ⟨rfl, rfl⟩
  | u :: us, s, t, hs => by
    have hu : u.length < 65536 := hs u (List.mem_cons_self ..)
    have hb := be16_num hu
    rw [units_cons, stream_cons, num, List.length_cons, List.cons_append, List.cons_append, List.cons_append, List.cons_append, List.nil_append, List.append_assoc, unitsSize, unitsWrite, hb]
    rw [if_neg (by rw [List.length_append]; omega), if_neg (by rw [List.length_append]; omega), List.drop_left, List.take_left]
    obtain ⟨e1, e2⟩ := units_spec us (s + (4 + u.length)) t (fun v hv => hs v (List.mem_cons_of_mem _ hv))
    rw [e1, e2, Res.map_ok]
    refine ⟨?_, rfl⟩
    simp only [List.length_cons, List.length_append]
    congr 2
    omega

theorem units_only : ∀ (n s s' : Nat) (b t : List UInt8), unitsSize n s b = some (s', t) → ∃ us, us.length = n ∧ Small us ∧ b = units us ++ t ∧ s' = s + (stream us).length
  | 0, s, s', b, t, h => by
    rw [unitsSize] at h
    cases h
    exact ⟨[], rfl, fun _ h => (by cases h), rfl, rfl⟩
  | n + 1, s, s', [], t, h => by rw [unitsSize] at h; cases h; rintro a b t ⟨⟩
  | n + 1, s, s', [_], t, h => by rw [unitsSize] at h; cases h; rintro a b t ⟨⟩
  | n + 1, s, s', x :: y :: b, t, h => by
    rw [unitsSize] at h
    by_cases hl : b.length < be16 x y
    · rw [if_pos hl] at h; cases h
    · rw [if_neg hl] at h
      obtain ⟨us, h1, h2, h3, h4⟩ := units_only n _ _ _ _ h
      have hlen : (b.take (be16 x y)).length = be16 x y := by rw [List.length_take]; omega
      refine ⟨b.take (be16 x y) :: us, by rw [List.length_cons, h1], ?_, ?_, ?_⟩
      · intro u hu
        rcases List.mem_cons.1 hu with rfl | hu
        · rw [hlen]; exact (num_be16 x y).2
        · exact h2 u hu
      · rw [units_cons, hlen, (num_be16 x y).1, List.append_assoc, List.append_assoc, ← h3, List.take_append_drop]
        rfl
      · rw [h4, stream_cons]
        simp only [List.length_cons, List.length_append, hlen]
        omega

theorem fill_ok {o : List UInt8} (h : o ≠ []) : fill o.length (.ok o) = .ok (some o) := by
  unfold fill
  rw [if_neg (fun hh => h (List.eq_nil_of_length_eq_zero hh)), Res.bind_ok, if_neg (Nat.lt_irrefl _), if_neg (by simp)]

theorem stream_ne {us : List (List UInt8)} (h : us ≠ []) : stream us ≠ [] := by
  cases us with
  | nil => exact absurd rfl h
  | cons u us => rw [stream_cons]; simp

/-! ## H.264 -/

theorem avcc_form {b hd : List UInt8} {x y : UInt8} {sps pps : List (List UInt8)} {t : List UInt8} (h1 : Small sps) (h2 : Small pps) (hh : hd.length = 5) (hx : x.toNat % 32 = sps.length) (hy : y.toNat % 32 = pps.length)
    (hb : b = hd ++ x :: (units sps ++ y :: (units pps ++ t))) : avccSize b = (stream (sps ++ pps)).length ∧ avccWrites 2 (b.drop 5) = .ok (stream (sps ++ pps)) := by
  have hd5 : b.drop 5 = x :: (units sps ++ y :: (units pps ++ t)) := by rw [hb, ← hh, List.drop_left]
  obtain ⟨a1, a2⟩ := units_spec sps 0 (y :: (units pps ++ t)) h1
  obtain ⟨b1, b2⟩ := units_spec pps (0 + (stream sps).length) t h2
  constructor
  · unfold avccSize
    rw [if_neg (by rw [hb, List.length_append, hh]; omega), hd5, avccSizes, hx, a1, Option.bind_some, avccSizes, hy, b1, Option.bind_some, avccSizes, Option.getD_some, stream_append, List.length_append]
    omega
  · rw [hd5, avccWrites, hx, a2, Res.bind_ok, avccWrites, hy, b2, Res.bind_ok, avccWrites, Res.map_ok, Res.map_ok, stream_append, List.append_nil]

/-- C127 in part: the parameter sets of a record are written with start codes, in their order, when there are less than 32 of each kind. -/
theorem avcc_partial {b : List UInt8} {sps pps : List (List UInt8)} (h : Avcc b sps pps) (hp : pps.length < 32) (hn : sps ++ pps ≠ []) : avcc b = .ok (some (stream (sps ++ pps))) := by
  obtain ⟨h1, h2, hd, x, y, t, hh, hx, hy, hb⟩ := h
  obtain ⟨e1, e2⟩ := avcc_form h1 h2 hh hx (by omega) hb
  unfold avcc
  rw [e1, e2, fill_ok (stream_ne hn)]

/-- C127: any data is either a record, with numbers in the low five bits, and its sets are written, or it is bad data; no size is wrong, nothing is read or written outside the buffers. -/
theorem avcc_any (b : List UInt8) : avcc b = .ok none ∨ ∃ (hd : List UInt8) (x y : UInt8) (sps pps : List (List UInt8)) (t : List UInt8),
    hd.length = 5 ∧ x.toNat % 32 = sps.length ∧ y.toNat % 32 = pps.length ∧ b = hd ++ x :: (units sps ++ y :: (units pps ++ t)) ∧ avcc b = .ok (some (stream (sps ++ pps))) := by
  by_cases h0 : avccSize b = 0
  · left; unfold avcc fill; rw [if_pos h0]
  · right
    have hs := h0
    unfold avccSize at hs
    by_cases h5 : b.length < 5
    · rw [if_pos h5] at hs; exact absurd rfl hs
    rw [if_neg h5] at hs
    cases hd : b.drop 5 with
    | nil => rw [hd] at hs; exact absurd rfl hs
    | cons x d =>
      rw [hd, avccSizes] at hs
      cases hu : unitsSize (x.toNat % 32) 0 d with
      | none => rw [hu] at hs; exact absurd rfl hs
      | some p =>
        rw [hu, Option.bind_some] at hs
        obtain ⟨s1, d1⟩ := p
        obtain ⟨sps, a1, a2, a3, a4⟩ := units_only _ _ _ _ _ hu
        cases d1 with
        | nil => exact absurd rfl hs
        | cons y d1 =>
          rw [avccSizes] at hs
          cases hv : unitsSize (y.toNat % 32) s1 d1 with
          | none => rw [hv] at hs; exact absurd rfl hs
          | some p =>
            obtain ⟨s2, t⟩ := p
            obtain ⟨pps, b1, b2, b3, b4⟩ := units_only _ _ _ _ _ hv
            have hh : (b.take 5).length = 5 := by rw [List.length_take]; omega
            have hb : b = b.take 5 ++ x :: (units sps ++ y :: (units pps ++ t)) := by
              conv => lhs; rw [← List.take_append_drop 5 b, hd, a3, b3]
            obtain ⟨e1, e2⟩ := avcc_form a2 b2 hh a1.symm b1.symm hb
            refine ⟨b.take 5, x, y, sps, pps, t, hh, a1.symm, b1.symm, hb, ?_⟩
            unfold avcc
            rw [e1, e2]
            refine fill_ok fun hz => h0 ?_
            rw [e1, hz]
            rfl

/-! ## H.265 -/

theorem arrays_cons (a : UInt8 × List (List UInt8)) (as : List (UInt8 × List (List UInt8))) : arrays (a :: as) = a.1 :: (num a.2.length ++ (units a.2 ++ arrays as)) := by simp [arrays]

theorem arrays_spec : ∀ (as : List (UInt8 × List (List UInt8))) (s : Nat) (t : List UInt8), (∀ a ∈ as, Small a.2 ∧ a.2.length < 65536) →
    hvccSizes as.length s (arrays as ++ t) = some (s + (stream (as.flatMap (·.2))).length) ∧ hvccWrites as.length (arrays as ++ t) = .ok (stream (as.flatMap (·.2)))
  | [], s, t, _ => ⟨rfl, rfl⟩
  | a :: as, s, t, h => by
    obtain ⟨h1, h2⟩ := h a (List.mem_cons_self ..)
    rw [arrays_cons, num, List.length_cons, List.cons_append, List.cons_append, List.cons_append, List.cons_append, List.cons_append, List.nil_append, List.append_assoc, hvccSizes, hvccWrites, be16_num h2]
    obtain ⟨a1, a2⟩ := units_spec a.2 s (arrays as ++ t) h1
    obtain ⟨b1, b2⟩ := arrays_spec as (s + (stream a.2).length) t (fun v hv => h v (List.mem_cons_of_mem _ hv))
    rw [a1, a2, Option.bind_some, Res.bind_ok, b1, b2, Res.map_ok, List.flatMap_cons, stream_append]
    refine ⟨?_, rfl⟩
    rw [List.length_append]
    congr 1
    omega

theorem arrays_only : ∀ (n s s' : Nat) (b : List UInt8), hvccSizes n s b = some s' → ∃ as t, as.length = n ∧ (∀ a ∈ as, Small a.2 ∧ a.2.length < 65536) ∧ b = arrays as ++ t
  | 0, s, s', b, h => ⟨[], b, rfl, fun _ h => (by cases h), rfl⟩
  | n + 1, s, s', [], h => by rw [hvccSizes] at h; cases h; rintro a b c t ⟨⟩
  | n + 1, s, s', [_], h => by rw [hvccSizes] at h; cases h; rintro a b c t ⟨⟩
  | n + 1, s, s', [_, _], h => by rw [hvccSizes] at h; cases h; rintro a b c t ⟨⟩
  | n + 1, s, s', k :: x :: y :: b, h => by
    rw [hvccSizes] at h
    cases hu : unitsSize (be16 x y) s b with
    | none => rw [hu] at h; cases h
    | some p =>
      obtain ⟨s1, d⟩ := p
      rw [hu, Option.bind_some] at h
      obtain ⟨us, a1, a2, a3, -⟩ := units_only _ _ _ _ _ hu
      obtain ⟨as, t, b1, b2, b3⟩ := arrays_only n _ _ _ h
      refine ⟨(k, us) :: as, t, by rw [List.length_cons, b1], ?_, ?_⟩
      · intro a ha
        rcases List.mem_cons.1 ha with rfl | ha
        · exact ⟨a2, by rw [a1]; exact (num_be16 x y).2⟩
        · exact b2 a ha
      · simp only [] at b3
        rw [arrays_cons, a1, (num_be16 x y).1, a3, b3]
        simp

theorem hvcc_form {b : List UInt8} {as : List (UInt8 × List (List UInt8))} (h : Hvcc b as) (hn : as.flatMap (·.2) ≠ []) : hvcc b = .ok (some (stream (as.flatMap (·.2)))) := by
  obtain ⟨h1, hd, x, t, hh, hx, hb⟩ := h
  obtain ⟨e1, e2⟩ := arrays_spec as 0 t h1
  have hl : ¬ b.length ≤ 22 := by rw [hb, List.length_append, hh, List.length_cons]; omega
  have hg : b[22]! = x := by
    rw [hb, getElem!_pos _ _ (by rw [List.length_append, hh, List.length_cons]; omega), List.getElem_append_right (by omega)]
    simp [hh]
  have hdr : b.drop 23 = arrays as ++ t := by
    rw [hb, ← List.singleton_append, ← List.append_assoc, show 23 = (hd ++ [x]).length by rw [List.length_append, hh]; rfl, List.drop_left]
  unfold hvcc hvccSize
  rw [if_neg hl, if_neg hl, hg, hdr, hx, e1, e2, Option.getD_some, Nat.zero_add]
  exact fill_ok (stream_ne hn)

/-- C128: the units of a record are written with start codes, in their order; any other data, and a record without units, is bad data; no size is wrong, nothing is read or written outside the buffers. -/
theorem hvcc_ok (b : List UInt8) :
    (∀ as, Hvcc b as → as.flatMap (·.2) ≠ [] → hvcc b = .ok (some (stream (as.flatMap (·.2))))) ∧
      ((¬ ∃ as, Hvcc b as ∧ as.flatMap (·.2) ≠ []) → hvcc b = .ok none) := by
  refine ⟨fun as h hn => hvcc_form h hn, fun hno => ?_⟩
  by_cases h0 : hvccSize b = 0
  · unfold hvcc fill; rw [if_pos h0]
  · exfalso
    have hs := h0
    unfold hvccSize at hs
    by_cases h5 : b.length ≤ 22
    · rw [if_pos h5] at hs; exact hs rfl
    rw [if_neg h5] at hs
    cases hu : hvccSizes b[22]!.toNat 0 (b.drop 23) with
    | none => rw [hu] at hs; exact hs rfl
    | some s =>
      obtain ⟨as, t, a1, a2, a3⟩ := arrays_only _ _ _ _ hu
      have hsz := (arrays_spec as 0 t a2).1
      rw [← a3, a1, hu] at hsz
      refine hno ⟨as, ⟨a2, b.take 22, b[22]!, t, by rw [List.length_take]; omega, a1.symm, ?_⟩, ?_⟩
      · rw [← a3, getElem!_pos b 22 (by omega), List.getElem_cons_drop, List.take_append_drop]
      · intro hz
        rw [hu, Option.getD_some] at hs
        rw [hz] at hsz
        cases hsz
        exact hs rfl

/-- C127, C128: the size of the sizes of units. -/
theorem len_ok (b : List UInt8) :
    (avccLen b = 0 ↔ b.length < 5) ∧ (∀ x, b[4]? = some x → avccLen b = x.toNat % 4 + 1) ∧ (hvccLen b = 0 ↔ b.length < 22) ∧ ∀ x, b[21]? = some x → hvccLen b = x.toNat % 4 + 1 := by
  unfold avccLen hvccLen
  refine ⟨?_, ?_, ?_, ?_⟩
  · split <;> simp_all
  · intro x hx
    obtain ⟨h1, h2⟩ := List.getElem?_eq_some_iff.1 hx
    rw [if_neg (by omega), getElem!_pos b 4 h1, h2]
  · split <;> simp_all
  · intro x hx
    obtain ⟨h1, h2⟩ := List.getElem?_eq_some_iff.1 hx
    rw [if_neg (by omega), getElem!_pos b 21 h1, h2]

end Verif.CodecCfg
