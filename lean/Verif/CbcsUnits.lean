import Verif.CbcsProps

/-!
# The scheme cbcs: units and frames
-/

namespace Verif.Cbcs

open Verif.Cenc (Cipher WB parseBe beN)
open Verif.Cbc (Evp cbc)
open Verif.CbcSpec (dec Undoes)
open Verif.CbcsSpec

theorem fold_be : ∀ (k x a : Nat), (beN k x).foldl (fun a b => a * 256 + b.toNat) a = a * 256 ^ k + x % 256 ^ k
  | 0, x, a => by simp [beN]; omega
  | k + 1, x, a => by
    rw [beN, List.foldl_cons, fold_be k, UInt8.toNat_ofNat', show 256 ^ (k + 1) = 256 ^ k * 256 from Nat.pow_succ _ _, Nat.mod_mul, Nat.add_mul, Nat.mul_assoc,
      Nat.mul_comm 256 (256 ^ k), Nat.mul_comm (x / 256 ^ k % 2 ^ 8), show (2 : Nat) ^ 8 = 256 from rfl]
    omega

theorem be_len : ∀ (k x : Nat), (beN k x).length = k
  | 0, _ => rfl
  | k + 1, x => by rw [beN, List.length_cons, be_len k]

theorem fold_lt : ∀ (l : List UInt8) (a : Nat), l.foldl (fun a b => a * 256 + b.toNat) a < (a + 1) * 256 ^ l.length
  | [], a => by simp
  | b :: l, a => by
    rw [List.foldl_cons, List.length_cons]
    refine Nat.lt_of_lt_of_le (fold_lt l _) ?_
    rw [Nat.pow_succ, Nat.mul_comm (256 ^ l.length) 256, ← Nat.mul_assoc]
    refine Nat.mul_le_mul_right _ ?_
    have := b.toNat_lt
    omega

theorem num_be {k x : Nat} (h : x < 256 ^ k) : num (beN k x) = x := by
  unfold num
  rw [fold_be, Nat.mod_eq_of_lt h]
  omega

theorem head_take {x : List UInt8} {t : UInt8} (h : x.head? = some t) : ∃ y, x = t :: y := by
  cases x with
  | nil => cases h
  | cons a y => simp at h; exact ⟨y, by rw [h]⟩

section
variable {P : Par} {C : Codec} {D : List UInt8 → List UInt8}

/-- A unit: what comes out is its size and a unit that is decrypted to it. -/
theorem unit_spec (hb : 16 ≤ P.bs) (hn : C.n + 1 ≤ P.bs) (hi : P.iv.length = 16) (hD : Undoes D P.E.enc) (ho : Own (fun b => toOpt (C.head b))) (hs : ∀ t, C.isSlice t ≠ .ub) (hh : ∀ b, C.head b ≠ .ub)
    {wb : WB} {t : UInt8} {d : List UInt8} {more : Bool} :
    unit P C wb t d more ≠ .ub ∧
    ((∃ b, toOpt (C.isSlice t) = some b ∧ (b = true → 18 ≤ (t :: d).length → ∃ h, toOpt (C.head ((t :: d).take 128)) = some h)) → ∃ r, unit P C wb t d more = .ok r) ∧
    ∀ r, unit P C wb t d more = .ok r → ∃ x, r.1.all = wb.all ++ (beN C.n (d.length + 1) ++ x) ∧ r.1.Ok ∧ x.length = d.length + 1 ∧
      decUnit D P.iv (fun t => toOpt (C.isSlice t)) (fun b => toOpt (C.head b)) x = some (t :: d) ∧
      (r.2 = true → more = false ∧ Short (fun t => toOpt (C.isSlice t)) (fun b => toOpt (C.head b)) (t :: d)) := by
  obtain ⟨w1, r1, r2, r3⟩ := WB.room_spec (s := wb) hn
  obtain ⟨w2, p1, p2, p3⟩ := WB.put_spec (s := w1) (d := beN C.n (d.length + 1) ++ [t]) (by
    rw [List.length_append, be_len]
    exact r3)
  have hu : unit P C wb t d more = (C.isSlice t >>= fun s =>
        if s = false ∨ d.length < 17 then copyPart P w2 d more
        else C.head ((t :: d).take 128) >>= fun h => slicePart P w2 d (h - 1) (min 128 (d.length + 1) - 1) more) := by
    unfold unit
    rw [r1, Res.bind_ok, p1, Res.bind_ok]
  rw [hu]
  cases hst : C.isSlice t with
  | ub => exact absurd hst (hs t)
  | err => exact ⟨by simp, fun ⟨b, hb, _⟩ => by simp [toOpt] at hb, fun r h => by simp at h⟩
  | ok s =>
    rw [Res.bind_ok]
    by_cases hc : s = false ∨ d.length < 17
    · rw [if_pos hc]
      obtain ⟨w3, c1, c2, c3⟩ := copyPart_spec (P := P) (by omega) p3 d more
      rw [c1]
      refine ⟨by simp, fun _ => ⟨_, rfl⟩, ?_⟩
      rintro r hr
      cases hr
      refine ⟨t :: d, ?_, c3, rfl, ?_, ?_⟩
      · show w3.all = _
        rw [c2, p2, r2]
        simp only [List.append_assoc, List.cons_append, List.nil_append]
      · unfold decUnit
        simp only [hst, toOpt]
        rcases hc with hc | hc
        · rw [hc]
        · cases s with
          | false => rfl
          | true => simp only []; rw [if_pos (by rw [List.length_cons]; omega)]
      · intro hr
        have := of_decide_eq_true hr
        exact ⟨this.2, Or.inl (by rw [List.length_cons]; omega)⟩
    · rw [if_neg hc]
      have hst' : s = true := by cases s <;> simp_all
      subst hst'
      have h17 : 17 ≤ d.length := by
        rcases Nat.lt_or_ge d.length 17 with h | h
        · exact absurd (Or.inr h) hc
        · exact h
      cases hhd : C.head ((t :: d).take 128) with
      | ub => exact absurd hhd (hh _)
      | err =>
        refine ⟨by simp, fun ⟨b, hb, hx⟩ => ?_, fun r h => by simp at h⟩
        simp only [toOpt, Option.some.injEq] at hb
        obtain ⟨h, hx⟩ := hx hb.symm (by rw [List.length_cons]; omega)
        simp [toOpt] at hx
      | ok h =>
        rw [Res.bind_ok]
        have how := fun b' => ho ((t :: d).take 128) b' h (by simp only [hhd, toOpt])
        have h2 := (how []).1
        have hlt : ((t :: d).take 128).length = min 128 (d.length + 1) := by rw [List.length_take, List.length_cons]
        have hle := (how []).2.1
        rw [hlt] at hle
        obtain ⟨w3, s1, s2, s3⟩ := slicePart_spec (P := P) hb hi p3 (d := d) (h := h - 1) (b := min 128 (d.length + 1) - 1) more (by omega) (by omega) (by omega) (by omega) (by omega)
        rw [s1]
        refine ⟨by simp, fun _ => ⟨_, rfl⟩, ?_⟩
        rintro r hr
        cases hr
        obtain ⟨q, hq⟩ : ∃ q, q = d.take (h - 1) ++ pat P.E (d.length - (h - 1)) P.iv (d.drop (h - 1)) := ⟨_, rfl⟩
        have hpl := pat_length (E := P.E) (d.length - (h - 1)) P.iv (d.drop (h - 1)) hi
        rw [List.length_drop] at hpl
        have hql : q.length = d.length := by rw [hq, List.length_append, hpl, List.length_take]; omega
        refine ⟨t :: q, ?_, s3, by rw [List.length_cons, hql], ?_, ?_⟩
        · show w3.all = _
          rw [s2, p2, r2, ← hq]
          simp only [List.append_assoc, List.cons_append, List.nil_append]
        · obtain ⟨m, hm⟩ : ∃ m, h = m + 1 := ⟨h - 1, by omega⟩
          subst hm
          rw [Nat.add_sub_cancel] at hq hpl
          have htk : (t :: q).take (m + 1) = (t :: d).take (m + 1) := by
            rw [List.take_succ_cons, List.take_succ_cons, hq, List.take_append_of_le_length (by rw [List.length_take]; omega), List.take_take, Nat.min_self]
          have hdr : (t :: q).drop (m + 1) = pat P.E (d.length - m) P.iv (d.drop m) := by
            rw [List.drop_succ_cons, hq, List.drop_append, List.length_take, List.drop_of_length_le (by rw [List.length_take]; omega), List.nil_append,
              show m - min m d.length = 0 by omega, List.drop_zero]
          have hh2 := (how ((t :: q).take 128)).2.2 (by rw [List.length_take, List.length_take, List.length_cons, List.length_cons, hql])
            (by rw [List.take_take, List.take_take, Nat.min_eq_left (by omega), htk])
          unfold decUnit
          simp only [hst, toOpt]
          rw [if_neg (by rw [List.length_cons]; omega)]
          simp only [toOpt] at hh2
          rw [hh2, Option.map_some, htk, hdr, hql, pat_more (d.length - m) (d.length + 1) P.iv (d.drop m) (by rw [List.length_drop]; omega) (by rw [List.length_drop]; omega),
            unpat_pat hD _ _ _ hi, List.take_succ_cons, List.cons_append, List.take_append_drop]
        · intro hr
          have hr := of_decide_eq_true hr
          have h128 : d.length + 1 ≤ 128 := by omega
          refine ⟨hr.2.2, Or.inr ⟨by rw [List.length_cons]; omega, by rw [List.length_cons]; omega, ⟨t, rfl, by simp only [hst, toOpt]⟩, h, ?_, by rw [List.length_cons]; omega⟩⟩
          rw [List.take_of_length_le (by rw [List.length_cons]; omega)] at hhd
          simp only [hhd, toOpt]

theorem Units_ne {n : Nat} {u : List UInt8} {us : List (List UInt8)} {d : List UInt8} (h : Units n (u :: us) d) : d.take n ++ u ++ d.drop (n + u.length) = d ∧ num (d.take n) = u.length ∧ u ≠ [] ∧
    Units n us (d.drop (n + u.length)) ∧ (d.take n).length = n := by
  cases h with
  | cons h1 h2 h3 h4 =>
    rename_i s d'
    have e1 : (s ++ u ++ d').take n = s := by rw [List.append_assoc, List.take_append_of_le_length (by omega), List.take_of_length_le (by omega)]
    have e2 : (s ++ u ++ d').drop (n + u.length) = d' := by
      rw [List.drop_append_of_le_length (by rw [List.length_append]; omega), List.drop_of_length_le (by rw [List.length_append]; omega), List.nil_append]
    rw [e1, e2]
    exact ⟨rfl, h2, h3, h4, h1⟩

/-- All units of a frame. -/
theorem units_spec (hb : 16 ≤ P.bs) (hn : C.n + 1 ≤ P.bs) (hi : P.iv.length = 16) (hD : Undoes D P.E.enc) (ho : Own (fun b => toOpt (C.head b))) (hs : ∀ t, C.isSlice t ≠ .ub) (hh : ∀ b, C.head b ≠ .ub) :
    ∀ (k : Nat) (wb : WB) (d : List UInt8), d ≠ [] → d.length ≤ k →
    units P C k wb d ≠ .ub ∧
    (Good C.n C.hdr (fun t => toOpt (C.isSlice t)) (fun b => toOpt (C.head b)) d → ∃ r, units P C k wb d = .ok r) ∧
    ∀ r, units P C k wb d = .ok r → ∃ x, r.1.all = wb.all ++ x ∧ r.1.Ok ∧
      Video D P.iv C.n (fun t => toOpt (C.isSlice t)) (fun b => toOpt (C.head b)) x d ∧
      (r.2 = true → ShortEnd C.n (fun t => toOpt (C.isSlice t)) (fun b => toOpt (C.head b)) d)
  | 0, _, d, hd, hk => absurd (List.eq_nil_of_length_eq_zero (by omega)) hd
  | k + 1, wb, d, hd, hk => by
    -- the sizes of a good frame
    have good : ∀ us, Units C.n us d → (∀ u ∈ us, C.hdr ≤ u.length ∧ ∃ t b, u.head? = some t ∧ toOpt (C.isSlice t) = some b ∧ (b = true → 18 ≤ u.length → ∃ h, toOpt (C.head (u.take 128)) = some h)) →
        ∃ u vs, us = u :: vs ∧ C.n + C.hdr ≤ d.length ∧ parseBe (d.take C.n) = u.length ∧ u ≠ [] ∧ u.length ≤ d.length - C.n ∧ (d.drop C.n).take u.length = u ∧
          Units C.n vs (d.drop (C.n + u.length)) ∧ (0 < d.length - C.n - u.length → C.n + C.hdr ≤ d.length - C.n - u.length) := by
      intro us hus hf
      cases us with
      | nil => cases hus; exact absurd rfl hd
      | cons u vs =>
        obtain ⟨a1, a2, a3, a4, a5⟩ := Units_ne hus
        have hl := congrArg List.length a1
        rw [List.length_append, List.length_append, a5, List.length_drop] at hl
        have hul : 0 < u.length := List.length_pos_iff.2 a3
        have hdl : C.n ≤ d.length := by rw [List.length_take] at a5; omega
        refine ⟨u, vs, rfl, by have := (hf u (by simp)).1; omega, a2, a3, by omega, ?_, a4, ?_⟩
        · conv => lhs; rw [← a1]
          rw [List.append_assoc, List.drop_append_of_le_length (by omega), List.drop_of_length_le (by omega), List.nil_append, List.take_append_of_le_length (by omega), List.take_length]
        · intro hpos
          cases vs with
          | nil =>
            generalize hg : d.drop (C.n + u.length) = g at a4
            cases a4
            have := congrArg List.length hg
            rw [List.length_drop, List.length_nil] at this
            omega
          | cons v ws =>
            obtain ⟨b1, -, -, -, b5⟩ := Units_ne a4
            have hl2 := congrArg List.length b1
            rw [List.length_append, List.length_append, b5, List.length_drop, List.length_drop] at hl2
            have := (hf v (by simp)).1
            omega
    unfold units
    by_cases h1 : d.length < C.n + C.hdr
    · rw [if_pos h1]
      refine ⟨by simp, ?_, fun r h => by simp at h⟩
      rintro ⟨us, hus, hf⟩
      obtain ⟨u, vs, -, g, -⟩ := good us hus hf
      omega
    rw [if_neg h1]
    obtain ⟨z, hz⟩ : ∃ z, z = parseBe (d.take C.n) := ⟨_, rfl⟩
    rw [← hz]
    by_cases h2 : z = 0
    · rw [if_pos h2]
      refine ⟨by simp, ?_, fun r h => by simp at h⟩
      rintro ⟨us, hus, hf⟩
      obtain ⟨u, vs, -, -, g, g', -⟩ := good us hus hf
      have := List.length_pos_iff.2 g'
      omega
    rw [if_neg h2]
    by_cases h3 : d.length - C.n < z
    · rw [if_pos h3]
      refine ⟨by simp, ?_, fun r h => by simp at h⟩
      rintro ⟨us, hus, hf⟩
      obtain ⟨u, vs, -, -, g, -, g', -⟩ := good us hus hf
      omega
    rw [if_neg h3]
    by_cases h4 : 0 < d.length - C.n - z ∧ d.length - C.n - z < C.n + C.hdr
    · rw [if_pos h4]
      refine ⟨by simp, ?_, fun r h => by simp at h⟩
      rintro ⟨us, hus, hf⟩
      obtain ⟨u, vs, -, -, g, -, -, -, -, g'⟩ := good us hus hf
      rw [← g, ← hz] at g'
      have := g' h4.1
      omega
    rw [if_neg h4]
    have hul : ((d.drop C.n).take z).length = z := by rw [List.length_take, List.length_drop]; omega
    cases hu : (d.drop C.n).take z with
    | nil => rw [hu] at hul; simp at hul; omega
    | cons t u =>
      rw [hu, List.length_cons] at hul
      simp only []
      have hsp : d = d.take C.n ++ (t :: u) ++ d.drop (C.n + z) := by
        rw [← hu, List.append_assoc]
        conv => lhs; rw [← List.take_append_drop C.n d, ← List.take_append_drop z (d.drop C.n)]
        rw [List.drop_drop]
      have htl : (d.take C.n).length = C.n := by rw [List.length_take]; omega
      have hzn : num (d.take C.n) = (t :: u).length := by rw [List.length_cons, hul, hz]; rfl
      have hz256 : u.length + 1 < 256 ^ C.n := by
        have := fold_lt (d.take C.n) 0
        rw [htl] at this
        rw [hul, hz]
        unfold parseBe
        omega
      obtain ⟨u1, u2, u3⟩ := unit_spec (wb := wb) (t := t) (d := u) (more := decide (0 < d.length - C.n - z)) hb hn hi hD ho hs hh
      cases hun : unit P C wb t u (decide (0 < d.length - C.n - z)) with
      | ub => exact absurd hun u1
      | err =>
        refine ⟨by simp, ?_, fun r h => by simp at h⟩
        rintro ⟨us, hus, hf⟩
        obtain ⟨u', vs, rfl, -, g, -, -, g', -⟩ := good us hus hf
        rw [← g, ← hz, hu] at g'
        subst g'
        obtain ⟨-, t', b, e1, e2, e3⟩ := hf _ (List.mem_cons_self)
        simp only [List.head?_cons, Option.some.injEq] at e1
        subst e1
        obtain ⟨r, hr⟩ := u2 ⟨b, e2, e3⟩
        rw [hun] at hr
        cases hr
      | ok x =>
        obtain ⟨y, y1, y2, y3, y4, y5⟩ := u3 x hun
        rw [Res.bind_ok]
        have hsz : (beN C.n (u.length + 1)).length = C.n := be_len _ _
        have hnm : num (beN C.n (u.length + 1)) = y.length := by rw [num_be hz256, y3]
        have hyne : y ≠ [] := by intro h; rw [h] at y3; simp at y3
        by_cases h5 : d.length - C.n - z = 0
        · rw [if_pos h5]
          have hd0 : d.drop (C.n + z) = [] := List.drop_of_length_le (by omega)
          rw [hd0, List.append_nil] at hsp
          have hU : Units C.n [t :: u] d := by
            have := Units.cons htl hzn (by simp) (Units.nil (n := C.n))
            rw [List.append_nil, ← hsp] at this
            exact this
          refine ⟨by simp, fun _ => ⟨_, rfl⟩, ?_⟩
          rintro r hr
          cases hr
          refine ⟨beN C.n (u.length + 1) ++ y, y1, y2, ⟨[y], [t :: u], ?_, hU, by simp [y3], by simp [y4]⟩, ?_⟩
          · have := Units.cons hsz hnm hyne (Units.nil (n := C.n))
            rw [List.append_nil] at this
            exact this
          · intro hr
            exact ⟨_, t :: u, hU, rfl, (y5 hr).2⟩
        · rw [if_neg h5]
          have hrl : (d.drop (C.n + z)).length = d.length - C.n - z := by rw [List.length_drop]; omega
          obtain ⟨i1, i2, i3⟩ := units_spec hb hn hi hD ho hs hh k x.1 (d.drop (C.n + z)) (by intro h; rw [h] at hrl; simp at hrl; omega) (by omega)
          refine ⟨i1, ?_, ?_⟩
          · rintro ⟨us, hus, hf⟩
            obtain ⟨u', vs, rfl, -, g, -, -, -, g', -⟩ := good us hus hf
            rw [← g, ← hz] at g'
            exact i2 ⟨vs, g', fun v hv => hf v (List.mem_cons_of_mem _ hv)⟩
          · intro r hr
            obtain ⟨x', x1, x2, ⟨us, vs, v1, v2, v0, v3⟩, x4⟩ := i3 r hr
            have cons : ∀ ws, Units C.n ws (d.drop (C.n + z)) → Units C.n ((t :: u) :: ws) d := by
              intro ws hw
              have := Units.cons htl hzn (by simp) hw
              rw [← hsp] at this
              exact this
            refine ⟨beN C.n (u.length + 1) ++ y ++ x', by rw [x1, y1]; simp only [List.append_assoc], x2, ⟨y :: us, (t :: u) :: vs, Units.cons hsz hnm hyne v1, cons vs v2, by rw [List.map_cons, List.map_cons, v0, y3]; rfl, ?_⟩, ?_⟩
            · rw [List.map_cons, List.map_cons, v3, y4]
            · intro hr2
              obtain ⟨ws, w, w1, w2, w3⟩ := x4 hr2
              refine ⟨(t :: u) :: ws, w, cons ws w1, ?_, w3⟩
              rw [List.getLast?_cons, w2]
              rfl

end

/-- A frame of audio. -/
theorem audio_spec {P : Par} {D : List UInt8 → List UInt8} (hb : 0 < P.bs) (hi : P.iv.length = 16) (hD : Undoes D P.E.enc) {wb : WB} (hw : wb.Ok) {d : List UInt8} (hd : d.length / 16 * 16 ≤ P.bs) :
    ∃ wb' x, audio P wb d = .ok (wb', false) ∧ wb'.all = wb.all ++ x ∧ wb'.Ok ∧ x.length = d.length ∧ decAudio D P.iv x = d := by
  obtain ⟨q, hq⟩ : ∃ q, q = d.length / 16 := ⟨_, rfl⟩
  have hm : d.length - d.length % 16 = 16 * q := by omega
  unfold audio
  rw [hm]
  have hcl := Cbc.cbc_length P.E q P.iv (d.take (16 * q)) hi (by rw [List.length_take]; omega)
  have first : ∃ w1, (if d.length > d.length % 16 then (writeEnc P (Evp.init P.iv) wb (d.take (16 * q))).map fun x => x.2 else .ok wb) = .ok w1 ∧ w1.all = wb.all ++ (cbc P.E q P.iv (d.take (16 * q))).1 ∧ w1.Ok := by
    by_cases h : d.length > d.length % 16
    · rw [if_pos h]
      have htl : (d.take (16 * q)).length = 16 * q := by rw [List.length_take]; omega
      obtain ⟨w, e1, e2, e3⟩ := writeEnc_spec (P := P) (e := Evp.init P.iv) (wb := wb) (d := d.take (16 * q)) (by rw [htl]; omega) (by simp [Evp.init]) hi
      refine ⟨w, by rw [e1]; rfl, ?_, e3⟩
      rw [e2]
      unfold Evp.init Evp.update
      simp only [List.nil_append]
      rw [htl, Nat.mul_div_cancel_left _ (by omega)]
    · rw [if_neg h]
      have : q = 0 := by omega
      subst this
      exact ⟨wb, rfl, by simp [cbc], hw⟩
  obtain ⟨w1, f1, f2, f3⟩ := first
  rw [f1, Res.bind_ok]
  obtain ⟨w2, s1, s2, s3⟩ := WB.write_spec hb f3 (d.drop (16 * q))
  rw [s1, Res.map_ok]
  have hxl : ((cbc P.E q P.iv (d.take (16 * q))).1 ++ d.drop (16 * q)).length = d.length := by rw [List.length_append, hcl.1, List.length_drop]; omega
  refine ⟨w2, (cbc P.E q P.iv (d.take (16 * q))).1 ++ d.drop (16 * q), rfl, by rw [s2, f2, List.append_assoc], s3, hxl, ?_⟩
  unfold decAudio
  rw [hxl, ← hq, Cbc.dec_cbc hD q P.iv (d.take (16 * q)) _ hi (by rw [List.length_take]; omega), List.drop_append_of_le_length (by omega), List.drop_of_length_le (by omega), List.nil_append,
    List.take_take, Nat.min_self, List.take_append_drop]

/-! ## Segments -/

theorem call_eq (P : Par) (C : Option Codec) (s : St) {d : List UInt8} {z : Nat} {zs : List Nat} (hd : d ≠ []) (hs : (ready P s).sizes = z :: zs) (hz : z = d.length) :
    call P C s d = (work P C (ready P s).wb d >>= fun x => .ok (if x.2 then ⟨x.1, zs, true⟩ else endFrame P x.1 zs)) := by
  have h0 : ¬ d.length = 0 := fun h => hd (List.eq_nil_of_length_eq_zero h)
  unfold call
  rw [if_neg h0]
  rw [hs]
  simp only []
  rw [if_neg (by simp [hz])]

theorem skip_skip (l : List Nat) : skipEmpty (skipEmpty l) = skipEmpty l := by
  unfold skipEmpty
  induction l with
  | nil => rfl
  | cons a l ih =>
    by_cases h : (a == 0) = true
    · simp only [List.dropWhile_cons, h, if_true]; exact ih
    · simp only [List.dropWhile_cons, h]
      simp [h]

theorem endFrame_spec (P : Par) {wb : WB} (hw : wb.Ok) (l : List Nat) : (endFrame P wb l).wb.all = wb.all ∧ (endFrame P wb l).wb.Ok ∧ (endFrame P wb l).stuck = false ∧ (endFrame P wb l).sizes = skipEmpty l ∧
    ((endFrame P wb l).sizes = [] → (endFrame P wb l).wb.sent = (endFrame P wb l).wb.all) := by
  unfold endFrame
  cases h : skipEmpty l with
  | nil => exact ⟨WB.flush_all _ _ _, WB.flush_ok _ _ _, rfl, rfl, fun _ => by simp only []; rw [WB.flush_sent, WB.flush_all]⟩
  | cons a l => exact ⟨rfl, hw, rfl, rfl, fun h => by simp at h⟩

theorem calls_spec {P : Par} {C : Option Codec} {R : List UInt8 → List UInt8 → Prop} {A : List UInt8 → Prop} {Q : List UInt8 → Prop} (hR : R [] []) :
    ∀ (l : List (List UInt8)) (s : St), (∀ d ∈ l, d ≠ [] → ∀ wb : WB, wb.Ok → work P C wb d ≠ .ub ∧ (A d → ∃ r, work P C wb d = .ok r) ∧
      ∀ r, work P C wb d = .ok r → ∃ x, r.1.all = wb.all ++ x ∧ r.1.Ok ∧ R x d ∧ (r.2 = true → Q d)) →
    s.wb.Ok → skipEmpty s.sizes = skipEmpty (l.map List.length) → (s.stuck = false → s.sizes = skipEmpty s.sizes ∧ (s.sizes = [] → s.wb.sent = s.wb.all)) →
    calls P C s l ≠ .ub ∧ ((∀ d ∈ l, d ≠ [] → A d) → ∃ s', calls P C s l = .ok s') ∧
    ∀ s', calls P C s l = .ok s' → ∃ xs, Each R xs l ∧ s'.wb.all = s.wb.all ++ xs.flatten ∧
      (s'.stuck = true → (∃ d, (l.filter (fun d => d != [])).getLast? = some d ∧ Q d) ∨ (l.filter (fun d => d != []) = [] ∧ s.stuck = true)) ∧ (s'.stuck = false → s'.wb.sent = s'.wb.all)
  | [], s, _, _, hz, hst => by
    refine ⟨by simp [calls], fun _ => ⟨s, rfl⟩, ?_⟩
    rintro s' h
    cases h
    refine ⟨[], Each.nil, by simp, fun h => Or.inr ⟨rfl, h⟩, fun h => (hst h).2 ?_⟩
    rw [(hst h).1, hz]
    rfl
  | d :: l, s, hp, hw, hz, hst => by
    have hp' := fun d' hd' => hp d' (List.mem_cons_of_mem _ hd')
    by_cases hd : d = []
    · subst hd
      have hc : calls P C s ([] :: l) = calls P C s l := by
        show (call P C s [] >>= fun s => calls P C s l) = _
        unfold call
        rw [if_pos (by rfl), Res.bind_ok]
      rw [hc]
      obtain ⟨i1, i2, i3⟩ := calls_spec hR l s hp' hw (by rw [hz]; rfl) hst
      refine ⟨i1, fun h => i2 fun d' hd' => h d' (List.mem_cons_of_mem _ hd'), ?_⟩
      intro s' h
      obtain ⟨xs, x1, x2, x3, x4⟩ := i3 s' h
      exact ⟨[] :: xs, Each.cons hR x1, by rw [x2]; simp, x3, x4⟩
    · have hl0 : 0 < d.length := List.length_pos_iff.2 hd
      have hsk : skipEmpty ((d :: l).map List.length) = d.length :: l.map List.length := by
        unfold skipEmpty
        rw [List.map_cons, List.dropWhile_cons, if_neg (by simp; exact hd)]
      have hrd : (ready P s).sizes = d.length :: l.map List.length ∧ (ready P s).wb.all = s.wb.all ∧ (ready P s).wb.Ok := by
        unfold ready
        cases hs : s.stuck with
        | true =>
          rw [if_pos rfl]
          obtain ⟨e1, e2, -, e4, -⟩ := endFrame_spec P hw s.sizes
          exact ⟨by rw [e4, hz, hsk], e1, e2⟩
        | false =>
          rw [if_neg (by simp)]
          exact ⟨by rw [(hst hs).1, hz, hsk], rfl, hw⟩
      obtain ⟨w1, w2, w3⟩ := hp d List.mem_cons_self hd (ready P s).wb hrd.2.2
      have hc : calls P C s (d :: l) = (call P C s d >>= fun s => calls P C s l) := rfl
      rw [hc, call_eq P C s hd hrd.1 rfl]
      cases hwk : work P C (ready P s).wb d with
      | ub => exact absurd hwk w1
      | err =>
        refine ⟨by simp, fun h => ?_, fun s' h => by simp at h⟩
        obtain ⟨r, hr⟩ := w2 (h d List.mem_cons_self hd)
        rw [hwk] at hr
        cases hr
      | ok r =>
        rw [Res.bind_ok, Res.bind_ok]
        obtain ⟨x, x1, x2, x3, x4⟩ := w3 r hwk
        obtain ⟨s1, hs1⟩ : ∃ s1, s1 = (if r.2 then (⟨r.1, l.map List.length, true⟩ : St) else endFrame P r.1 (l.map List.length)) := ⟨_, rfl⟩
        rw [← hs1]
        have f : s1.wb.all = r.1.all ∧ s1.wb.Ok ∧ skipEmpty s1.sizes = skipEmpty (l.map List.length) ∧ (s1.stuck = false → s1.sizes = skipEmpty s1.sizes ∧ (s1.sizes = [] → s1.wb.sent = s1.wb.all)) ∧
            (s1.stuck = true → r.2 = true) := by
          rw [hs1]
          cases hr2 : r.2 with
          | true =>
            rw [if_pos rfl]
            exact ⟨rfl, x2, rfl, fun h => by simp at h, fun _ => rfl⟩
          | false =>
            rw [if_neg (by simp)]
            obtain ⟨e1, e2, e3, e4, e5⟩ := endFrame_spec P x2 (l.map List.length)
            exact ⟨e1, e2, by rw [e4, skip_skip], fun _ => ⟨by rw [e4, skip_skip], e5⟩, fun h => by rw [e3] at h; cases h⟩
        obtain ⟨i1, i2, i3⟩ := calls_spec hR l s1 hp' f.2.1 f.2.2.1 f.2.2.2.1
        refine ⟨i1, fun h => i2 fun d' hd' => h d' (List.mem_cons_of_mem _ hd'), ?_⟩
        intro s' h
        obtain ⟨xs, y1, y2, y3, y4⟩ := i3 s' h
        refine ⟨x :: xs, Each.cons x3 y1, ?_, ?_, y4⟩
        · rw [y2, f.1, x1, hrd.2.1, List.flatten_cons, List.append_assoc]
        · intro hs'
          left
          rw [List.filter_cons_of_pos (by simp [hd])]
          rcases y3 hs' with ⟨d', e1, e2⟩ | ⟨e1, e2⟩
          · exact ⟨d', by rw [List.getLast?_cons, e1]; rfl, e2⟩
          · exact ⟨d, by rw [e1]; rfl, x4 (f.2.2.2.2 e2)⟩

/-- C122: segments of audio. Each frame keeps its size, and is decrypted to what it was. -/
theorem audio_ok {P : Par} {D : List UInt8 → List UInt8} (hb : 0 < P.bs) (hi : P.iv.length = 16) (hD : Undoes D P.E.enc) (frames : List (List UInt8)) (hf : ∀ d ∈ frames, d.length / 16 * 16 ≤ P.bs) :
    ∃ xs, serve P none frames = .ok xs.flatten ∧ Each (fun x d => x.length = d.length ∧ decAudio D P.iv x = d) xs frames := by
  obtain ⟨-, h2, h3⟩ := calls_spec (P := P) (C := none) (R := fun x d => x.length = d.length ∧ decAudio D P.iv x = d) (A := fun _ => True) (Q := fun _ => False)
    ⟨rfl, rfl⟩ frames ⟨WB.init, skipEmpty (frames.map List.length), false⟩ (by
      intro d hd _ wb hw
      obtain ⟨wb', x, a1, a2, a3, a4, a5⟩ := audio_spec hb hi hD hw (hf d hd)
      show audio P wb d ≠ _ ∧ _
      refine ⟨by rw [a1]; simp, fun _ => ⟨_, a1⟩, fun r hr => ?_⟩
      have hr : audio P wb d = .ok r := hr
      rw [a1] at hr
      cases hr
      exact ⟨x, a2, a3, ⟨a4, a5⟩, fun h => by cases h⟩) (by simp [WB.init, WB.Ok]) (skip_skip _) (fun _ => ⟨(skip_skip _).symm, fun _ => rfl⟩)
  obtain ⟨s', hs⟩ := h2 fun _ _ _ => trivial
  obtain ⟨xs, x1, x2, x3, x4⟩ := h3 s' hs
  refine ⟨xs, ?_, x1⟩
  unfold serve
  rw [hs, Res.map_ok]
  have hst : s'.stuck = false := by
    cases h : s'.stuck with
    | false => rfl
    | true => rcases x3 h with ⟨_, _, h⟩ | ⟨_, h⟩ <;> simp at h
  rw [x4 hst, x2]
  simp [WB.init, WB.all]

/-- C123 in part: segments of video, when the last unit of the last frame that has data is not short. Frames that can be read are not refused; what is sent is decrypted to the frames, unit by unit. -/
theorem video_partial {P : Par} {C : Codec} {D : List UInt8 → List UInt8} (hb : 16 ≤ P.bs) (hn : C.n + 1 ≤ P.bs) (hi : P.iv.length = 16) (hD : Undoes D P.E.enc)
    (ho : Own (fun b => toOpt (C.head b))) (hs : ∀ t, C.isSlice t ≠ .ub) (hh : ∀ b, C.head b ≠ .ub) (frames : List (List UInt8))
    (hl : ∀ d, (frames.filter (fun d => d != [])).getLast? = some d → ¬ ShortEnd C.n (fun t => toOpt (C.isSlice t)) (fun b => toOpt (C.head b)) d) :
    serve P (some C) frames ≠ .ub ∧
    ((∀ d ∈ frames, d ≠ [] → Good C.n C.hdr (fun t => toOpt (C.isSlice t)) (fun b => toOpt (C.head b)) d) → ∃ s, serve P (some C) frames = .ok s) ∧
    ∀ s, serve P (some C) frames = .ok s → ∃ xs, s = xs.flatten ∧ Each (Video D P.iv C.n (fun t => toOpt (C.isSlice t)) (fun b => toOpt (C.head b))) xs frames := by
  obtain ⟨h1, h2, h3⟩ := calls_spec (P := P) (C := some C) (R := Video D P.iv C.n (fun t => toOpt (C.isSlice t)) (fun b => toOpt (C.head b)))
    (A := Good C.n C.hdr (fun t => toOpt (C.isSlice t)) (fun b => toOpt (C.head b))) (Q := ShortEnd C.n (fun t => toOpt (C.isSlice t)) (fun b => toOpt (C.head b)))
    ⟨[], [], Units.nil, Units.nil, rfl, rfl⟩ frames ⟨WB.init, skipEmpty (frames.map List.length), false⟩
    (fun d _ hd wb _ => units_spec hb hn hi hD ho hs hh d.length wb d hd (Nat.le_refl _)) (by simp [WB.init, WB.Ok]) (skip_skip _) (fun _ => ⟨(skip_skip _).symm, fun _ => rfl⟩)
  unfold serve
  refine ⟨?_, ?_, ?_⟩
  · cases hc : calls P (some C) ⟨WB.init, skipEmpty (frames.map List.length), false⟩ frames with
    | ub => exact absurd hc h1
    | err => simp
    | ok s => simp
  · intro hg
    obtain ⟨s, hs⟩ := h2 hg
    exact ⟨_, by rw [hs, Res.map_ok]⟩
  · intro s hsv
    cases hc : calls P (some C) ⟨WB.init, skipEmpty (frames.map List.length), false⟩ frames with
    | ub => exact absurd hc h1
    | err => rw [hc] at hsv; simp at hsv
    | ok s' =>
      rw [hc, Res.map_ok] at hsv
      cases hsv
      obtain ⟨xs, x1, x2, x3, x4⟩ := h3 s' hc
      refine ⟨xs, ?_, x1⟩
      have hst : s'.stuck = false := by
        cases h : s'.stuck with
        | false => rfl
        | true =>
          rcases x3 h with ⟨d, e1, e2⟩ | ⟨_, h⟩
          · exact absurd e2 (hl d e1)
          · simp at h
      rw [x4 hst, x2]
      simp [WB.init, WB.all]

end Verif.Cbcs
