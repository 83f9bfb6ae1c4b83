import Verif.JsonGrammar

/-!
# Properties C14, C15 and C34, concluded
-/

namespace Verif.Json

/-! ## Facts about the grammar -/

/-- How values start. -/
def First (c : UInt8) : Prop :=
  c = 34 ∨ c = 91 ∨ c = 123 ∨ c = 110 ∨ c = 116 ∨ c = 102 ∨ c = 45 ∨ isDigit c = true

theorem first_facts : ∀ c, First c → isSpace c = false ∧ c ≠ 93 ∧ c ≠ 125 :=
  forall_byte (by unfold First; decide +kernel)

theorem numLit_start {s : List UInt8} {n : Int} {d : Nat} (h : NumLit s n d) :
    ∃ neg ds s2, s = sign neg ++ ds ++ s2 ∧ ds ≠ [] ∧ Digits ds ∧
      ((d = 1 ∧ s2 = []) ∨ (d ≠ 1 ∧ ∃ fs, s2 = 46 :: fs)) := by
  cases h with
  | @int neg ds hne hd hm => exact ⟨neg, ds, [], by simp, hne, hd, Or.inl ⟨rfl, rfl⟩⟩
  | @frac neg ds fs hne hd hfne _ _ _ =>
    refine ⟨neg, ds, 46 :: fs, by simp, hne, hd, Or.inr ⟨?_, fs, rfl⟩⟩
    match fs, hfne with
    | f :: fs, _ =>
      rw [List.length_cons, Nat.pow_succ]
      omega

theorem numLit_first {s : List UInt8} {n : Int} {d : Nat} (h : NumLit s n d) :
    ∃ c cs, s = c :: cs ∧ (c = 45 ∨ isDigit c = true) := by
  obtain ⟨neg, ds, s2, rfl, hne, hd, _⟩ := numLit_start h
  match ds, hne, hd with
  | x :: ds, _, hd =>
    cases neg with
    | true => exact ⟨45, _, rfl, Or.inl rfl⟩
    | false => exact ⟨x, _, rfl, Or.inr hd.head⟩

theorem items_len {α : Type} {R : Nat → List UInt8 → List UInt8 → α → Prop}
    (hR : ∀ off s s' v, R off s s' v → s'.length = s.length) {off : Nat} {t t' : List UInt8} {vs : List α}
    (h : Items R off t t' vs) : t'.length = t.length := by
  induction h with
  | one hr _ => simp only [List.length_append, hR _ _ _ _ hr]
  | cons hr _ _ _ ih => simp only [List.length_append, hR _ _ _ _ hr, ih]

theorem isMember_len {R : Nat → List UInt8 → List UInt8 → V → Prop}
    (hR : ∀ off s s' v, R off s s' v → s'.length = s.length) (off : Nat) (s s' : List UInt8) (m : Key × V)
    (h : IsMember R off s s' m) : s'.length = s.length := by
  obtain ⟨b, w, w', t, t', hb, _, _, rfl, rfl, _, hr⟩ := h
  simp only [List.length_append, List.length_cons, lowerKey_length hb, hR _ _ _ _ hr]

theorem gr_len : ∀ (n off : Nat) (s s' : List UInt8) (v : V), Gr n off s s' v → s'.length = s.length
  | 0, off, s, s', v, h => by
    unfold Gr at h
    rcases h with ⟨_, rfl⟩ | ⟨_, _, _, rfl, _⟩ | ⟨_, _, _, rfl, _⟩ | h
    · rfl
    · rfl
    · rfl
    · cases h
  | n + 1, off, s, s', v, h => by
    unfold Gr at h
    rcases h with ⟨_, rfl⟩ | ⟨_, _, _, rfl, _⟩ | ⟨_, _, _, rfl, _⟩ | h | h
    · rfl
    · rfl
    · rfl
    · obtain ⟨w, t, t', v0, vs, ty, _, _, _, hi, rfl, rfl, _⟩ := h
      have := items_len (fun o a a' v h => gr_len n o a a' v h.1) hi
      simp only [List.length_append, List.length_cons, this]
    · obtain ⟨w, t, t', ms, _, _, hi, rfl, rfl, _⟩ := h
      have := items_len (isMember_len (gr_len n)) hi
      simp only [List.length_append, List.length_cons, this]

theorem gr_first {n off : Nat} {s s' : List UInt8} {v : V} (h : Gr n off s s' v) : ∃ c cs, s = c :: cs ∧ First c := by
  have scalar : Scalar off s v → ∃ c cs, s = c :: cs ∧ First c := by
    intro h
    cases h with
    | null => exact ⟨_, _, rfl, by unfold First; decide⟩
    | true => exact ⟨_, _, rfl, by unfold First; decide⟩
    | false => exact ⟨_, _, rfl, by unfold First; decide⟩
    | num hl =>
      obtain ⟨c, cs, e, hc⟩ := numLit_first hl
      exact ⟨c, cs, e, by unfold First; rcases hc with h | h <;> simp [h]⟩
    | str h => exact ⟨_, _, rfl, Or.inl rfl⟩
  cases n with
  | zero =>
    unfold Gr at h
    rcases h with ⟨h, _⟩ | ⟨_, _, rfl, _⟩ | ⟨_, _, rfl, _⟩ | h
    · exact scalar h
    · exact ⟨_, _, rfl, by unfold First; decide⟩
    · exact ⟨_, _, rfl, by unfold First; decide⟩
    · cases h
  | succ n =>
    unfold Gr at h
    rcases h with ⟨h, _⟩ | ⟨_, _, rfl, _⟩ | ⟨_, _, rfl, _⟩ | h | h
    · exact scalar h
    · exact ⟨_, _, rfl, by unfold First; decide⟩
    · exact ⟨_, _, rfl, by unfold First; decide⟩
    · obtain ⟨w, t, t', v0, vs, ty, _, _, _, hi, rfl, _⟩ := h
      exact ⟨_, _, rfl, by unfold First; decide⟩
    · obtain ⟨w, t, t', ms, _, _, hi, rfl, _⟩ := h
      exact ⟨_, _, rfl, by unfold First; decide⟩

/-! ## The type of an array -/

theorem afterDigits_eq : ∀ {ds : List UInt8} {c : UInt8} {cs : List UInt8}, Digits ds → isDigit c = false →
    afterDigits (ds ++ c :: cs) = .ok c
  | [], c, cs, _, hc => by
    unfold afterDigits
    rw [List.nil_append]
    dsimp only
    rw [if_neg (by rw [hc]; decide)]
  | d :: ds, c, cs, hd, hc => by
    rw [List.cons_append]
    unfold afterDigits
    rw [if_pos hd.head]
    exact afterDigits_eq hd.tail hc

theorem afterDigits_safe : ∀ {l : List UInt8}, 0 ∈ l → afterDigits l ≠ .ub
  | [], h => nomatch h
  | c :: cs, h => by
    unfold afterDigits
    split
    · rename_i hc
      rcases List.mem_cons.mp h with h | h
      · exact absurd h.symm (digit_facts c hc).1
      · exact afterDigits_safe h
    · exact fun h => nomatch h

theorem valueType_safe {l : List UInt8} (h : 0 ∈ l) : valueType l ≠ .ub := by
  unfold valueType
  obtain ⟨c, cs, hcs, hc⟩ := peek_ok h
  rw [hc, bind_ok']
  split
  · exact fun h => nomatch h
  · split
    · exact fun h => nomatch h
    · split
      · exact fun h => nomatch h
      · split
        · exact fun h => nomatch h
        · dsimp only
          have hz : 0 ∈ (if c = 45 then l.drop 1 else l) := by
            split
            · rename_i e
              rw [hcs] at h ⊢
              rcases List.mem_cons.mp h with h | h
              · rw [e] at h; exact absurd h (by decide)
              · exact h
            · exact h
          generalize (if c = 45 then l.drop 1 else l) = r at hz
          obtain ⟨d, ds, _, hd⟩ := peek_ok hz
          rw [hd, bind_ok']
          split
          · exact fun h => nomatch h
          · apply bind_ne_ub (afterDigits_safe hz)
            intro e _
            split <;> exact fun h => nomatch h

theorem valueType_num {s : List UInt8} {n : Int} {d : Nat} (h : NumLit s n d) {c : UInt8} {cs : List UInt8}
    (hc : isDigit c = false) (hc1 : d = 1 → c ≠ 46) :
    valueType (s ++ c :: cs) = .ok (if d = 1 then .int else .frac) := by
  obtain ⟨neg, ds, s2, rfl, hne, hd, h2⟩ := numLit_start h
  have hafter : ∃ e es, s2 ++ c :: cs = e :: es ∧ isDigit e = false ∧ (e = 46 ↔ d ≠ 1) := by
    rcases h2 with ⟨h1, rfl⟩ | ⟨h1, fs, rfl⟩
    · exact ⟨c, cs, rfl, hc, fun h => absurd h (hc1 h1), fun h => absurd h1 h⟩
    · exact ⟨46, _, rfl, by decide, fun _ => h1, fun _ => rfl⟩
  obtain ⟨e, es, he, hed, h46⟩ := hafter
  match ds, hne, hd with
  | x :: ds, _, hd =>
    have hf := digit_facts x hd.head
    have hfin : ∀ (r : List UInt8), r = x :: ds ++ e :: es →
        ((peek r).bind fun d => if ¬ isDigit d = true then Res.err
          else (afterDigits r).bind fun e => if e = 46 then .ok Ty.frac else .ok .int) =
        .ok (if d = 1 then .int else .frac) := by
      rintro r rfl
      rw [List.cons_append, peek_cons, bind_ok', if_neg (by simpa using hd.head), ← List.cons_append,
        afterDigits_eq hd hed, bind_ok']
      by_cases h1 : d = 1
      · rw [if_pos h1, if_neg (fun h => h46.mp h h1)]
      · rw [if_neg h1, if_pos (h46.mpr h1)]
    rw [List.append_assoc, he]
    unfold valueType
    cases neg with
    | true =>
      rw [show sign true ++ x :: ds ++ e :: es = 45 :: (x :: ds ++ e :: es) from rfl, peek_cons, bind_ok',
        if_neg (by decide), if_neg (by decide), if_neg (by decide), if_neg (by decide)]
      exact hfin _ rfl
    | false =>
      rw [show sign false ++ x :: ds ++ e :: es = x :: (ds ++ e :: es) from rfl, peek_cons, bind_ok',
        if_neg hf.2.2.2.2.1, if_neg hf.2.2.2.2.2.1, if_neg hf.2.2.2.2.2.2.1,
        if_neg (fun h => h.elim hf.2.2.2.2.2.2.2.2.2.1 hf.2.2.2.2.2.2.2.2.1)]
      dsimp only
      rw [if_neg hf.2.2.2.1]
      exact hfin _ rfl

theorem typeOf_num (n : Int) (d : Nat) : typeOf (.num n d) = some (if d = 1 then .int else .frac) := by
  unfold typeOf
  dsimp only
  split <;> rfl

theorem valueType_gr {n off : Nat} {s s' : List UInt8} {v : V} (h : Gr n off s s' v) {ty : Ty}
    (hty : typeOf v = some ty) {post : List UInt8} (hp : Stop post) : valueType (s ++ post) = .ok ty := by
  have start : ∀ (c : UInt8) (cs : List UInt8), s = c :: cs →
      ((c = 34 ∧ ty = .str) ∨ (c = 91 ∧ ty = .arr) ∨ (c = 123 ∧ ty = .obj) ∨ ((c = 102 ∨ c = 116) ∧ ty = .bool)) →
      valueType (s ++ post) = .ok ty := by
    rintro c cs rfl h
    unfold valueType
    rw [List.cons_append, peek_cons, bind_ok']
    rcases h with ⟨rfl, rfl⟩ | ⟨rfl, rfl⟩ | ⟨rfl, rfl⟩ | ⟨h, rfl⟩
    · rfl
    · rfl
    · rfl
    · rcases h with rfl | rfl <;> rfl
  have scalar : Scalar off s v → valueType (s ++ post) = .ok ty := by
    intro h
    cases h with
    | null => cases hty
    | true => cases hty; exact start _ _ rfl (by simp)
    | false => cases hty; exact start _ _ rfl (by simp)
    | str h => cases hty; exact start _ _ rfl (by simp)
    | @num s n d hl =>
      obtain ⟨c, cs, rfl, hc, h46⟩ := hp
      rw [valueType_num hl hc (fun _ => h46)]
      rw [typeOf_num] at hty
      rw [Option.some.inj hty]
  cases n with
  | zero =>
    unfold Gr at h
    rcases h with ⟨h, _⟩ | ⟨_, _, rfl, _, rfl⟩ | ⟨_, _, rfl, _, rfl⟩ | h
    · exact scalar h
    · cases hty; exact start _ _ rfl (by simp)
    · cases hty; exact start _ _ rfl (by simp)
    · cases h
  | succ n =>
    unfold Gr at h
    rcases h with ⟨h, _⟩ | ⟨_, _, rfl, _, rfl⟩ | ⟨_, _, rfl, _, rfl⟩ | h | h
    · exact scalar h
    · cases hty; exact start _ _ rfl (by simp)
    · cases hty; exact start _ _ rfl (by simp)
    · obtain ⟨w, t, t', v0, vs, ty, _, _, _, hi, rfl, _, rfl⟩ := h
      cases hty; exact start _ _ rfl (by simp)
    · obtain ⟨w, t, t', ms, _, _, hi, rfl, _, rfl⟩ := h
      cases hty; exact start _ _ rfl (by simp)

/-! ## Arrays and objects -/

theorem loop_first {α : Type} {close : UInt8} {item : St → Res (α × St)} {k count : Nat} {st st' : St} {v : α}
    {vs : List α} (h : loop close item k count st = .ok (v :: vs, st')) : ∃ st1, item st = .ok (v, st1) := by
  cases k with
  | zero => cases h
  | succ k =>
    unfold loop at h
    split at h
    · cases h
    · obtain ⟨⟨v1, st1⟩, h1, h⟩ := bind_eq_ok h
      obtain ⟨st2, h2, h⟩ := bind_eq_ok h
      obtain ⟨c, hc, h⟩ := bind_eq_ok h
      split at h
      · cases h; exact ⟨st1, h1⟩
      · split at h
        · obtain ⟨st3, h3, h⟩ := bind_eq_ok h
          obtain ⟨⟨vs1, st4⟩, h4, h⟩ := bind_eq_ok h
          cases h
          exact ⟨st1, h1⟩
        · cases h

/-- What a parser of elements does at the next level. -/
structure Elems (p : Parser) (d n : Nat) : Prop where
  any : Sound (p none d) (Gr n)
  typed : ∀ ty, Sound (p (some ty) d) (fun o a a' v => Gr n o a a' v ∧ Fits ty v)
  exact : ∀ ty st v st', p (some ty) d st = .ok (v, st') → valueType st.rest = .ok ty → typeOf v = some ty
  anyC : Complete (p none d) (Gr n)
  typedC : ∀ ty, Complete (p (some ty) d) (fun o a a' v => Gr n o a a' v ∧ Fits ty v)

/-- What is read is an array (`open` is its bracket) or object that is nested at most `n` deep. -/
def IsArr (n off : Nat) (s s' : List UInt8) (v : V) : Prop := Gr n off s s' v ∧ typeOf v = some .arr
def IsObj (n off : Nat) (s s' : List UInt8) (v : V) : Prop := Gr n off s s' v ∧ typeOf v = some .obj

theorem array_sound {p : Parser} {d n : Nat} (hd : d + n = 32) (hp : ∀ k, n = k + 1 → Elems p (d + 1) k)
    {st st' : St} {v : V} {cs : List UInt8} (hcs : st.rest = 91 :: cs) (h : array p d st = .ok (v, st')) :
    ∃ s s', Took st st' s s' ∧ IsArr n st.done.length s s' v := by
  unfold array at h
  obtain ⟨st1, h1, h⟩ := bind_eq_ok h
  obtain ⟨c, hc, h⟩ := bind_eq_ok h
  have ht0 := Took.adv hcs (by decide)
  obtain ⟨w, hw, ht1, _⟩ := Took.spaces h1
  obtain ⟨cs1, hcs1⟩ := peek_eq hc
  have ht := ht0.trans ht1
  by_cases h93 : c = 93
  · rw [if_pos h93] at h
    cases h
    subst h93
    have ht2 := ht.trans (Took.adv hcs1 (by decide))
    refine ⟨_, _, ht2, ?_, rfl⟩
    unfold Gr
    exact Or.inr (Or.inl ⟨w, hw, rfl, rfl, rfl⟩)
  · rw [if_neg h93] at h
    split at h
    · cases h
    · rename_i hdep
      have hmax : maxDepth = 32 := rfl
      obtain ⟨k, rfl⟩ : ∃ k, n = k + 1 := ⟨n - 1, by omega⟩
      obtain ⟨ty, hty, h⟩ := bind_eq_ok h
      obtain ⟨⟨vs, st2⟩, h2, h⟩ := bind_eq_ok h
      cases h
      obtain ⟨t, t', ht2, hit, hne, hn⟩ := loop_sound ((hp k rfl).typed ty) (by decide) h2
      match vs, hne, h2, hit, hn with
      | v0 :: vs, _, h2, hit, hn =>
        obtain ⟨stx, hx⟩ := loop_first h2
        have hex := (hp k rfl).exact ty _ _ _ hx hty
        have ht3 := ht.trans ht2
        refine ⟨_, _, ht3, ?_, rfl⟩
        unfold Gr
        refine Or.inr (Or.inr (Or.inr (Or.inl ⟨w, t, t', v0, vs, ty, hw, hex, by omega, ?_, by simp, by simp, rfl⟩)))
        rw [ht.off] at hit
        simpa only [List.length_append, List.length_singleton, Nat.add_assoc] using hit

theorem array_complete {p : Parser} {d n : Nat} (hd : d + n = 32) (hp : ∀ k, n = k + 1 → Elems p (d + 1) k)
    (done s s' : List UInt8) (v : V) (post : List UInt8) (h : IsArr n done.length s s' v) :
    array p d { done := done, rest := s ++ post } = .ok (v, { done := done ++ s', rest := post }) := by
  obtain ⟨h, hty⟩ := h
  have hmax : maxDepth = 32 := rfl
  have hempty : ∀ w, Ws w → array p d { done := done, rest := 91 :: (w ++ [93]) ++ post } =
      .ok (.arr none [], { done := done ++ (91 :: (w ++ [93])), rest := post }) := by
    intro w hw
    unfold array
    rw [List.cons_append, adv_mk]
    dsimp only
    rw [List.append_assoc, show [93] ++ post = 93 :: post from rfl, skipSpaces_complete _ hw (by decide), bind_ok']
    dsimp only
    rw [peek_cons, bind_ok', if_pos rfl, adv_mk]
    simp
  have hscalar : ∀ off, Scalar off s v → False := by
    intro off h
    cases h with
    | num h =>
      rw [typeOf_num] at hty
      have := Option.some.inj hty
      split at this <;> cases this
    | _ => cases hty
  cases n with
  | zero =>
    unfold Gr at h
    rcases h with ⟨h, _⟩ | ⟨w, hw, rfl, rfl, rfl⟩ | ⟨_, _, _, _, rfl⟩ | h
    · exact (hscalar _ h).elim
    · exact hempty w hw
    · cases hty
    · cases h
  | succ n =>
    unfold Gr at h
    rcases h with ⟨h, _⟩ | ⟨w, hw, rfl, rfl, rfl⟩ | ⟨_, _, _, _, rfl⟩ | h | h
    · exact (hscalar _ h).elim
    · exact hempty w hw
    · cases hty
    · obtain ⟨w, t, t', v0, vs, ty, hw, hv0, hn, hi, rfl, rfl, rfl⟩ := h
      have hE := hp n rfl
      have hhead : ∃ s0 s0' post0, t = s0 ++ post0 ∧ Gr n (done.length + 1 + w.length) s0 s0' v0 ∧
          ∀ x, Stop (post0 ++ 93 :: x) := by
        cases hi with
        | one hr hw' => exact ⟨_, _, _, rfl, hr.1, fun x => stop_ws hw' (by decide) (by decide) _⟩
        | cons hr hw1 hw2 _ =>
          refine ⟨_, _, _, by rw [List.append_assoc, List.append_assoc, List.append_assoc], hr.1, fun x => ?_⟩
          rw [List.append_assoc]
          exact stop_ws hw1 (by decide) (by decide) _
      obtain ⟨s0, s0', post0, ht, hg0, hstop⟩ := hhead
      obtain ⟨c, cs, hc, hfirst⟩ := gr_first hg0
      have hf := first_facts c hfirst
      have hR : ∀ (off : Nat) (s s' : List UInt8) (v : V), Gr n off s s' v ∧ Fits ty v →
          s'.length = s.length ∧ ∃ c cs, s = c :: cs ∧ isSpace c = false := by
        intro off s s' v h
        obtain ⟨c, cs, e, hc⟩ := gr_first h.1
        exact ⟨gr_len _ _ _ _ _ h.1, c, cs, e, (first_facts c hc).1⟩
      have hoff : done.length + 1 + w.length = (done ++ [91] ++ w).length := by
        simp only [List.length_append, List.length_singleton]
      have hfuel : (v0 :: vs).length ≤ (t ++ 93 :: post).length + 1 := by
        have := items_length hi
        rw [List.length_append]
        omega
      have hrest : t ++ 93 :: post = c :: (cs ++ post0 ++ 93 :: post) := by rw [ht, hc]; simp
      unfold array
      rw [List.cons_append, adv_mk]
      dsimp only
      rw [show w ++ t ++ [93] ++ post = w ++ (t ++ 93 :: post) by simp, hrest,
        skipSpaces_complete _ hw hf.1, bind_ok']
      dsimp only
      rw [peek_cons, bind_ok', if_neg hf.2.1, if_neg (by omega), ← hrest,
        show t ++ 93 :: post = s0 ++ (post0 ++ 93 :: post) by rw [ht]; simp,
        valueType_gr hg0 hv0 (hstop post), bind_ok', ← List.append_assoc, ← ht,
        loop_complete (hE.typedC ty) hR (by decide) (by decide) (by decide) (by decide) hi _ 0 _ post hoff hfuel
          (by omega), bind_ok']
      simp
    · obtain ⟨w, t, t', ms, _, _, hi, rfl, rfl, rfl⟩ := h
      cases hty

theorem array_safe {p : Parser} {d n : Nat} (hd : d + n = 32) (hp : ∀ k, n = k + 1 → Elems p (d + 1) k)
    (hs : ∀ k, n = k + 1 → ∀ w, Safe (p w (d + 1))) {st : St} {cs : List UInt8} (hcs : st.rest = 91 :: cs)
    (hz : 0 ∈ st.rest) : array p d st ≠ .ub := by
  unfold array
  have hz1 := (Took.adv hcs (by decide)).mem hz
  obtain ⟨st1, h1⟩ := skipSpaces_safe (adv st).done hz1
  rw [h1, bind_ok']
  obtain ⟨w, hw, ht1, _⟩ := Took.spaces h1
  have hz2 := ht1.mem hz1
  obtain ⟨c, cs1, hcs1, hc⟩ := peek_ok hz2
  rw [hc, bind_ok']
  split
  · exact fun h => nomatch h
  · split
    · exact fun h => nomatch h
    · rename_i hdep
      have hmax : maxDepth = 32 := rfl
      obtain ⟨k, rfl⟩ : ∃ k, n = k + 1 := ⟨n - 1, by omega⟩
      apply bind_ne_ub (valueType_safe hz2)
      intro ty _
      apply bind_ne_ub (loop_safe ((hp k rfl).typed ty) (hs k rfl _) 93 _ 0 st1 hz2 (Nat.lt_succ_self _))
      rintro ⟨a, b⟩ _
      exact fun h => nomatch h

theorem member_sound {p : Parser} {d n : Nat} (hp : Sound (p none d) (Gr n)) :
    Sound (member p d) (IsMember (Gr n)) := by
  intro st v st' h
  unfold member at h
  obtain ⟨⟨k, st1⟩, h1, h⟩ := bind_eq_ok h
  obtain ⟨st2, h2, h⟩ := bind_eq_ok h
  obtain ⟨st3, h3, h⟩ := bind_eq_ok h
  obtain ⟨st4, h4, h⟩ := bind_eq_ok h
  obtain ⟨⟨v1, st5⟩, h5, h⟩ := bind_eq_ok h
  cases h
  obtain ⟨b, hb, t1, hk⟩ := key_sound h1
  obtain ⟨w, hw, t2, _⟩ := Took.spaces h2
  have t3 := expect_sound (by decide) h3
  obtain ⟨w', hw', t4, _⟩ := Took.spaces h4
  obtain ⟨t, t', t5, hr⟩ := hp _ _ _ h5
  have to4 := ((t1.trans t2).trans t3).trans t4
  refine ⟨_, _, to4.trans t5, b, w, w', t, t', hb, hw, hw', by simp, by simp, hk, ?_⟩
  rw [to4.off] at hr
  have e : (34 :: (b ++ [34]) ++ w ++ [58] ++ w').length = 1 + b.length + 1 + w.length + 1 + w'.length := by
    simp only [List.length_append, List.length_cons, List.length_nil]
    omega
  rw [e] at hr
  simpa only [Nat.add_assoc] using hr

theorem member_complete {p : Parser} {d n : Nat} (hp : Complete (p none d) (Gr n)) :
    Complete (member p d) (IsMember (Gr n)) := by
  rintro done s s' ⟨k, v⟩ post ⟨b, w, w', t, t', hb, hw, hw', rfl, rfl, hk, hr⟩ hstop
  dsimp only at hk hr
  obtain ⟨c, cs, hc, hfirst⟩ := gr_first hr
  unfold member
  have e : 34 :: (b ++ [34] ++ w ++ [58] ++ w' ++ t) ++ post =
      34 :: (b ++ [34]) ++ (w ++ 58 :: (w' ++ (t ++ post))) := by simp
  rw [e, key_complete hb, bind_ok']
  dsimp only
  rw [skipSpaces_complete _ hw (by decide), bind_ok', expect_complete, bind_ok']
  dsimp only
  have e2 : t ++ post = c :: (cs ++ post) := by rw [hc]; rfl
  rw [e2, skipSpaces_complete _ hw' (first_facts c hfirst).1, bind_ok', ← e2]
  have hl : (done ++ 34 :: (lowerKey b ++ [34]) ++ w ++ [58] ++ w').length =
      done.length + 1 + b.length + 1 + w.length + 1 + w'.length := by
    simp only [List.length_append, List.length_cons, List.length_nil, lowerKey_length hb]
    omega
  rw [hp _ t t' v post (by rw [hl]; exact hr) hstop, bind_ok', hk]
  simp

theorem member_safe {p : Parser} {d : Nat} (hp : Safe (p none d)) : Safe (member p d) := by
  intro st hz
  unfold member
  apply bind_ne_ub (key_safe hz)
  rintro ⟨k, st1⟩ h1
  obtain ⟨b, hb, t1, hk⟩ := key_sound h1
  have hz1 := t1.mem hz
  obtain ⟨st2, h2⟩ := skipSpaces_safe st1.done hz1
  dsimp only
  rw [h2, bind_ok']
  obtain ⟨w, hw, t2, _⟩ := Took.spaces h2
  have hz2 := t2.mem hz1
  apply bind_ne_ub (expect_safe hz2)
  intro st3 h3
  have hz3 := (expect_sound (by decide) h3).mem hz2
  obtain ⟨st4, h4⟩ := skipSpaces_safe st3.done hz3
  rw [h4, bind_ok']
  obtain ⟨w', hw', t4, _⟩ := Took.spaces h4
  apply bind_ne_ub (hp st4 (t4.mem hz3))
  rintro ⟨v, st5⟩ _
  exact fun h => nomatch h

theorem object_sound {p : Parser} {d n : Nat} (hd : d + n = 32) (hp : ∀ k, n = k + 1 → Elems p (d + 1) k)
    {st st' : St} {v : V} {cs : List UInt8} (hcs : st.rest = 123 :: cs) (h : object p d st = .ok (v, st')) :
    ∃ s s', Took st st' s s' ∧ IsObj n st.done.length s s' v := by
  unfold object at h
  obtain ⟨st1, h1, h⟩ := bind_eq_ok h
  obtain ⟨c, hc, h⟩ := bind_eq_ok h
  have ht0 := Took.adv hcs (by decide)
  obtain ⟨w, hw, ht1, _⟩ := Took.spaces h1
  obtain ⟨cs1, hcs1⟩ := peek_eq hc
  have ht := ht0.trans ht1
  by_cases h125 : c = 125
  · rw [if_pos h125] at h
    cases h
    subst h125
    have ht2 := ht.trans (Took.adv hcs1 (by decide))
    refine ⟨_, _, ht2, ?_, rfl⟩
    unfold Gr
    exact Or.inr (Or.inr (Or.inl ⟨w, hw, rfl, rfl, rfl⟩))
  · rw [if_neg h125] at h
    split at h
    · cases h
    · rename_i hdep
      have hmax : maxDepth = 32 := rfl
      obtain ⟨k, rfl⟩ : ∃ k, n = k + 1 := ⟨n - 1, by omega⟩
      obtain ⟨⟨ms, st2⟩, h2, h⟩ := bind_eq_ok h
      cases h
      obtain ⟨t, t', ht2, hit, hne, hn⟩ := loop_sound (member_sound (hp k rfl).any) (by decide) h2
      have ht3 := ht.trans ht2
      refine ⟨_, _, ht3, ?_, rfl⟩
      unfold Gr
      refine Or.inr (Or.inr (Or.inr (Or.inr ⟨w, t, t', ms, hw, by omega, ?_, by simp, by simp, rfl⟩)))
      rw [ht.off] at hit
      simpa only [List.length_append, List.length_singleton, Nat.add_assoc] using hit

theorem isMember_first {R : Nat → List UInt8 → List UInt8 → V → Prop} {off : Nat} {s s' : List UInt8} {m : Key × V}
    (h : IsMember R off s s' m) : ∃ cs, s = 34 :: cs := by
  obtain ⟨b, w, w', t, t', _, _, _, rfl, _⟩ := h
  exact ⟨_, rfl⟩

theorem object_complete {p : Parser} {d n : Nat} (hd : d + n = 32) (hp : ∀ k, n = k + 1 → Elems p (d + 1) k)
    (done s s' : List UInt8) (v : V) (post : List UInt8) (h : IsObj n done.length s s' v) :
    object p d { done := done, rest := s ++ post } = .ok (v, { done := done ++ s', rest := post }) := by
  obtain ⟨h, hty⟩ := h
  have hmax : maxDepth = 32 := rfl
  have hempty : ∀ w, Ws w → object p d { done := done, rest := 123 :: (w ++ [125]) ++ post } =
      .ok (.obj [], { done := done ++ (123 :: (w ++ [125])), rest := post }) := by
    intro w hw
    unfold object
    rw [List.cons_append, adv_mk]
    dsimp only
    rw [List.append_assoc, show [125] ++ post = 125 :: post from rfl, skipSpaces_complete _ hw (by decide), bind_ok']
    dsimp only
    rw [peek_cons, bind_ok', if_pos rfl, adv_mk]
    simp
  have hscalar : ∀ off, Scalar off s v → False := by
    intro off h
    cases h with
    | num h =>
      rw [typeOf_num] at hty
      have := Option.some.inj hty
      split at this <;> cases this
    | _ => cases hty
  cases n with
  | zero =>
    unfold Gr at h
    rcases h with ⟨h, _⟩ | ⟨_, _, _, _, rfl⟩ | ⟨w, hw, rfl, rfl, rfl⟩ | h
    · exact (hscalar _ h).elim
    · cases hty
    · exact hempty w hw
    · cases h
  | succ n =>
    unfold Gr at h
    rcases h with ⟨h, _⟩ | ⟨_, _, _, _, rfl⟩ | ⟨w, hw, rfl, rfl, rfl⟩ | h | h
    · exact (hscalar _ h).elim
    · cases hty
    · exact hempty w hw
    · obtain ⟨w, t, t', v0, vs, ty, _, _, _, hi, rfl, rfl, rfl⟩ := h
      cases hty
    · obtain ⟨w, t, t', ms, hw, hn, hi, rfl, rfl, rfl⟩ := h
      have hE := hp n rfl
      have hhead : ∃ cs, t = 34 :: cs := by
        cases hi with
        | one hr _ => obtain ⟨cs, rfl⟩ := isMember_first hr; exact ⟨_, rfl⟩
        | cons hr _ _ _ => obtain ⟨cs, rfl⟩ := isMember_first hr; exact ⟨_, rfl⟩
      obtain ⟨cs, hc⟩ := hhead
      have hR : ∀ (off : Nat) (s s' : List UInt8) (m : Key × V), IsMember (Gr n) off s s' m →
          s'.length = s.length ∧ ∃ c cs, s = c :: cs ∧ isSpace c = false := by
        intro off s s' m h
        obtain ⟨cs, e⟩ := isMember_first h
        exact ⟨isMember_len (gr_len n) _ _ _ _ h, 34, cs, e, by decide⟩
      have hoff : done.length + 1 + w.length = (done ++ [123] ++ w).length := by
        simp only [List.length_append, List.length_singleton]
      have hfuel : ms.length ≤ (t ++ 125 :: post).length + 1 := by
        have := items_length hi
        rw [List.length_append]
        omega
      have hrest : t ++ 125 :: post = 34 :: (cs ++ 125 :: post) := by rw [hc]; rfl
      unfold object
      rw [List.cons_append, adv_mk]
      dsimp only
      rw [show w ++ t ++ [125] ++ post = w ++ (t ++ 125 :: post) by simp, hrest,
        skipSpaces_complete _ hw (by decide), bind_ok']
      dsimp only
      rw [peek_cons, bind_ok', if_neg (by decide), if_neg (by omega), ← hrest,
        loop_complete (member_complete hE.anyC) hR (by decide) (by decide) (by decide) (by decide) hi _ 0 _ post
          hoff hfuel (by omega), bind_ok']
      simp

theorem object_safe {p : Parser} {d n : Nat} (hd : d + n = 32) (hp : ∀ k, n = k + 1 → Elems p (d + 1) k)
    (hs : ∀ k, n = k + 1 → ∀ w, Safe (p w (d + 1))) {st : St} {cs : List UInt8} (hcs : st.rest = 123 :: cs)
    (hz : 0 ∈ st.rest) : object p d st ≠ .ub := by
  unfold object
  have hz1 := (Took.adv hcs (by decide)).mem hz
  obtain ⟨st1, h1⟩ := skipSpaces_safe (adv st).done hz1
  rw [h1, bind_ok']
  obtain ⟨w, hw, ht1, _⟩ := Took.spaces h1
  have hz2 := ht1.mem hz1
  obtain ⟨c, cs1, hcs1, hc⟩ := peek_ok hz2
  rw [hc, bind_ok']
  split
  · exact fun h => nomatch h
  · split
    · exact fun h => nomatch h
    · rename_i hdep
      have hmax : maxDepth = 32 := rfl
      obtain ⟨k, rfl⟩ : ∃ k, n = k + 1 := ⟨n - 1, by omega⟩
      apply bind_ne_ub (loop_safe (member_sound (hp k rfl).any) (member_safe (hs k rfl none)) 125 _ 0 st1 hz2
        (Nat.lt_succ_self _))
      rintro ⟨a, b⟩ _
      exact fun h => nomatch h

/-! ## Values -/

theorem gr_scalar {n off : Nat} {s : List UInt8} {v : V} (h : Scalar off s v) : Gr n off s s v := by
  unfold Gr
  exact Or.inl ⟨h, rfl⟩

/-- The cases of the grammar. -/
theorem gr_cases {n off : Nat} {s s' : List UInt8} {v : V} (h : Gr n off s s' v) :
    (Scalar off s v ∧ s' = s) ∨ (IsArr n off s s' v ∧ ∃ cs, s = 91 :: cs) ∨ (IsObj n off s s' v ∧ ∃ cs, s = 123 :: cs) := by
  have h0 := h
  cases n with
  | zero =>
    unfold Gr at h
    rcases h with h | ⟨_, _, rfl, _, rfl⟩ | ⟨_, _, rfl, _, rfl⟩ | h
    · exact Or.inl h
    · exact Or.inr (Or.inl ⟨⟨h0, rfl⟩, _, rfl⟩)
    · exact Or.inr (Or.inr ⟨⟨h0, rfl⟩, _, rfl⟩)
    · cases h
  | succ n =>
    unfold Gr at h
    rcases h with h | ⟨_, _, rfl, _, rfl⟩ | ⟨_, _, rfl, _, rfl⟩ | h | h
    · exact Or.inl h
    · exact Or.inr (Or.inl ⟨⟨h0, rfl⟩, _, rfl⟩)
    · exact Or.inr (Or.inr ⟨⟨h0, rfl⟩, _, rfl⟩)
    · obtain ⟨w, t, t', v0, vs, ty, _, _, _, hi, rfl, _, rfl⟩ := h
      exact Or.inr (Or.inl ⟨⟨h0, rfl⟩, _, rfl⟩)
    · obtain ⟨w, t, t', ms, _, _, hi, rfl, _, rfl⟩ := h
      exact Or.inr (Or.inr ⟨⟨h0, rfl⟩, _, rfl⟩)

theorem value_none (junk : Int) (m d : Nat) (st : St) (c : UInt8) (cs : List UInt8) (hcs : st.rest = c :: cs) :
    value junk (m + 1) none d st =
      if c = 34 then string st
      else if c = 91 then array (value junk m) d st
      else if c = 123 then object (value junk m) d st
      else if c = 110 then (expectStr [110, 117, 108, 108] st).bind fun st1 => .ok (.null, st1)
      else if c = 116 then (expectStr [116, 114, 117, 101] st).bind fun st1 => .ok (.bool true, st1)
      else if c = 102 then (expectStr [102, 97, 108, 115, 101] st).bind fun st1 => .ok (.bool false, st1)
      else fraction st := by
  rw [value, hcs, peek_cons, bind_ok']

theorem value_some (junk : Int) (m d : Nat) (st : St) (c : UInt8) (cs : List UInt8) (hcs : st.rest = c :: cs)
    (ty : Ty) :
    value junk (m + 1) (some ty) d st =
      match ty with
      | .str => if c ≠ 34 then .err else string st
      | .arr => if c ≠ 91 then .err else array (value junk m) d st
      | .obj => if c ≠ 123 then .err else object (value junk m) d st
      | .bool => elemBool st
      | .frac => fraction st
      | .int => elemInt junk st := by
  rw [value, hcs, peek_cons, bind_ok']
  cases ty <;> rfl

theorem value_peek {junk : Int} {m d : Nat} {w : Option Ty} {st : St} {r : V × St}
    (h : value junk (m + 1) w d st = .ok r) : ∃ c cs, st.rest = c :: cs := by
  rw [value] at h
  obtain ⟨c, hc, _⟩ := bind_eq_ok h
  obtain ⟨cs, hcs⟩ := peek_eq hc
  exact ⟨c, cs, hcs⟩

theorem value_step (junk : Int) {m n d : Nat} (hd : d + n = 32)
    (hp : ∀ k, n = k + 1 → Elems (value junk m) (d + 1) k) : Elems (value junk (m + 1)) d n where
  any := by
    intro st v st' h
    obtain ⟨c, cs, hcs⟩ := value_peek h
    rw [value_none junk m d st c cs hcs] at h
    split at h
    · rename_i e; subst e
      obtain ⟨s, s', ht, b, hb, rfl, rfl, rfl⟩ := string_sound hcs h
      exact ⟨_, _, ht, gr_scalar (.str hb)⟩
    · split at h
      · rename_i e; subst e
        obtain ⟨s, s', ht, hg⟩ := array_sound hd hp hcs h
        exact ⟨s, s', ht, hg.1⟩
      · split at h
        · rename_i e; subst e
          obtain ⟨s, s', ht, hg⟩ := object_sound hd hp hcs h
          exact ⟨s, s', ht, hg.1⟩
        · split at h
          · obtain ⟨st1, h1, h⟩ := bind_eq_ok h
            cases h
            exact ⟨_, _, expectStr_sound (by decide) h1, gr_scalar .null⟩
          · split at h
            · obtain ⟨st1, h1, h⟩ := bind_eq_ok h
              cases h
              exact ⟨_, _, expectStr_sound (by decide) h1, gr_scalar .true⟩
            · split at h
              · obtain ⟨st1, h1, h⟩ := bind_eq_ok h
                cases h
                exact ⟨_, _, expectStr_sound (by decide) h1, gr_scalar .false⟩
              · obtain ⟨s, s', ht, n, d, hl, rfl, rfl⟩ := fraction_sound _ _ _ h
                exact ⟨_, _, ht, gr_scalar (.num hl)⟩
  typed := by
    intro ty st v st' h
    obtain ⟨c, cs, hcs⟩ := value_peek h
    rw [value_some junk m d st c cs hcs] at h
    cases ty with
    | str =>
      dsimp only at h
      split at h
      · cases h
      · rename_i e
        have e : c = 34 := Decidable.not_not.mp e
        subst e
        obtain ⟨s, s', ht, b, hb, rfl, rfl, rfl⟩ := string_sound hcs h
        exact ⟨_, _, ht, gr_scalar (.str hb), Or.inl rfl⟩
    | arr =>
      dsimp only at h
      split at h
      · cases h
      · rename_i e
        have e : c = 91 := Decidable.not_not.mp e
        subst e
        obtain ⟨s, s', ht, hg⟩ := array_sound hd hp hcs h
        exact ⟨s, s', ht, hg.1, Or.inl hg.2⟩
    | obj =>
      dsimp only at h
      split at h
      · cases h
      · rename_i e
        have e : c = 123 := Decidable.not_not.mp e
        subst e
        obtain ⟨s, s', ht, hg⟩ := object_sound hd hp hcs h
        exact ⟨s, s', ht, hg.1, Or.inl hg.2⟩
    | bool =>
      obtain ⟨s, s', ht, rfl, ⟨rfl, rfl⟩ | ⟨rfl, rfl⟩⟩ := elemBool_sound _ _ _ h
      · exact ⟨_, _, ht, gr_scalar .true, Or.inl rfl⟩
      · exact ⟨_, _, ht, gr_scalar .false, Or.inl rfl⟩
    | frac =>
      obtain ⟨s, s', ht, n, q, hl, rfl, rfl⟩ := fraction_sound _ _ _ h
      refine ⟨_, _, ht, gr_scalar (.num hl), ?_⟩
      unfold Fits
      rw [typeOf_num]
      split
      · exact Or.inr ⟨rfl, rfl⟩
      · exact Or.inl rfl
    | int =>
      obtain ⟨s, s', ht, n, hl, rfl, rfl⟩ := elemInt_sound junk _ _ _ h
      exact ⟨_, _, ht, gr_scalar (.num hl), Or.inl (typeOf_num _ _)⟩
  exact := by
    intro ty st v st' h hvt
    obtain ⟨c, cs, hcs⟩ := value_peek h
    rw [value_some junk m d st c cs hcs] at h
    cases ty with
    | str =>
      dsimp only at h
      split at h
      · cases h
      · rename_i e
        have e : c = 34 := Decidable.not_not.mp e
        subst e
        obtain ⟨s, s', ht, b, hb, rfl, rfl, rfl⟩ := string_sound hcs h
        rfl
    | arr =>
      dsimp only at h
      split at h
      · cases h
      · rename_i e
        have e : c = 91 := Decidable.not_not.mp e
        subst e
        obtain ⟨s, s', ht, hg⟩ := array_sound hd hp hcs h
        exact hg.2
    | obj =>
      dsimp only at h
      split at h
      · cases h
      · rename_i e
        have e : c = 123 := Decidable.not_not.mp e
        subst e
        obtain ⟨s, s', ht, hg⟩ := object_sound hd hp hcs h
        exact hg.2
    | bool =>
      obtain ⟨s, s', ht, rfl, ⟨rfl, rfl⟩ | ⟨rfl, rfl⟩⟩ := elemBool_sound _ _ _ h
      · rfl
      · rfl
    | frac =>
      obtain ⟨s, n, q, ht, hl, rfl, x, xs, hx, hxd, h46⟩ := fraction_sound' h
      rw [ht.rest, hx, valueType_num hl hxd h46] at hvt
      injection hvt with hvt
      rw [typeOf_num, hvt]
    | int =>
      obtain ⟨s, s', ht, n, hl, rfl, rfl⟩ := elemInt_sound junk _ _ _ h
      exact typeOf_num _ _
  anyC := by
    intro done s s' v post hg hstop
    rcases gr_cases hg with ⟨hs, rfl⟩ | ⟨hg, cs, rfl⟩ | ⟨hg, cs, rfl⟩
    · cases hs with
      | null =>
        rw [value_none junk m d _ _ _ (List.cons_append ..), if_neg (by decide), if_neg (by decide),
          if_neg (by decide), if_pos rfl, expectStr_complete]
        rfl
      | true =>
        rw [value_none junk m d _ _ _ (List.cons_append ..), if_neg (by decide), if_neg (by decide),
          if_neg (by decide), if_neg (by decide), if_pos rfl, expectStr_complete]
        rfl
      | false =>
        rw [value_none junk m d _ _ _ (List.cons_append ..), if_neg (by decide), if_neg (by decide),
          if_neg (by decide), if_neg (by decide), if_neg (by decide), if_pos rfl, expectStr_complete]
        rfl
      | str hb =>
        rw [value_none junk m d _ _ _ (List.cons_append ..), if_pos rfl]
        exact string_complete _ _ _ _ _ ⟨_, hb, rfl, rfl, rfl⟩ hstop
      | @num s n q hl =>
        obtain ⟨c, cs, hc, hf⟩ := numLit_first hl
        have hne : c ≠ 34 ∧ c ≠ 91 ∧ c ≠ 123 ∧ c ≠ 110 ∧ c ≠ 116 ∧ c ≠ 102 := by
          rcases hf with rfl | hf
          · decide
          · have := digit_facts c hf
            exact ⟨this.2.2.2.2.1, this.2.2.2.2.2.1, this.2.2.2.2.2.2.1, this.2.2.2.2.2.2.2.1,
              this.2.2.2.2.2.2.2.2.1, this.2.2.2.2.2.2.2.2.2.1⟩
        rw [value_none junk m d _ c (cs ++ post) (by rw [hc]; rfl), if_neg hne.1, if_neg hne.2.1,
          if_neg hne.2.2.1, if_neg hne.2.2.2.1, if_neg hne.2.2.2.2.1, if_neg hne.2.2.2.2.2]
        exact fraction_complete _ _ _ _ _ ⟨_, _, hl, rfl, rfl⟩ hstop
    · rw [value_none junk m d _ _ _ (List.cons_append ..), if_neg (by decide), if_pos rfl]
      exact array_complete hd hp _ _ _ _ _ hg
    · rw [value_none junk m d _ _ _ (List.cons_append ..), if_neg (by decide), if_neg (by decide), if_pos rfl]
      exact object_complete hd hp _ _ _ _ _ hg
  typedC := by
    rintro ty done s s' v post ⟨hg, hfit⟩ hstop
    rcases gr_cases hg with ⟨hs, rfl⟩ | ⟨hg, cs, rfl⟩ | ⟨hg, cs, rfl⟩
    · cases hs with
      | null =>
        rcases hfit with h | ⟨_, h⟩ <;> cases h
      | true =>
        rcases hfit with h | ⟨_, h⟩
        · cases h
          rw [value_some junk m d _ _ _ (List.cons_append ..)]
          exact elemBool_complete _ _ _ _ _ ⟨rfl, Or.inl ⟨rfl, rfl⟩⟩ hstop
        · cases h
      | false =>
        rcases hfit with h | ⟨_, h⟩
        · cases h
          rw [value_some junk m d _ _ _ (List.cons_append ..)]
          exact elemBool_complete _ _ _ _ _ ⟨rfl, Or.inr ⟨rfl, rfl⟩⟩ hstop
        · cases h
      | str hb =>
        rcases hfit with h | ⟨_, h⟩
        · cases h
          rw [value_some junk m d _ _ _ (List.cons_append ..)]
          dsimp only
          rw [if_neg (by decide)]
          exact string_complete _ _ _ _ _ ⟨_, hb, rfl, rfl, rfl⟩ hstop
        · cases h
      | @num s n q hl =>
        obtain ⟨c, cs, hc, hf⟩ := numLit_first hl
        rw [value_some junk m d _ c (cs ++ post) (by rw [hc]; rfl)]
        unfold Fits at hfit
        rw [typeOf_num] at hfit
        by_cases hq : q = 1
        · rw [if_pos hq] at hfit
          subst hq
          rcases hfit with h | ⟨rfl, _⟩
          · cases h
            exact elemInt_complete junk _ _ _ _ _ ⟨_, hl, rfl, rfl⟩ hstop
          · exact fraction_complete _ _ _ _ _ ⟨_, _, hl, rfl, rfl⟩ hstop
        · rw [if_neg hq] at hfit
          rcases hfit with h | ⟨_, h⟩
          · cases h
            exact fraction_complete _ _ _ _ _ ⟨_, _, hl, rfl, rfl⟩ hstop
          · cases h
    · rcases hfit with h | ⟨_, h⟩
      · have := Option.some.inj (hg.2.symm.trans h)
        subst this
        rw [value_some junk m d _ _ _ (List.cons_append ..)]
        dsimp only
        rw [if_neg (by decide)]
        exact array_complete hd hp _ _ _ _ _ hg
      · have := hg.2.symm.trans h
        cases this
    · rcases hfit with h | ⟨_, h⟩
      · have := Option.some.inj (hg.2.symm.trans h)
        subst this
        rw [value_some junk m d _ _ _ (List.cons_append ..)]
        dsimp only
        rw [if_neg (by decide)]
        exact object_complete hd hp _ _ _ _ _ hg
      · have := hg.2.symm.trans h
        cases this

theorem value_spec (junk : Int) : ∀ (n d : Nat), d + n = 32 → Elems (value junk (n + 2)) d n
  | 0, d, hd => value_step junk hd (fun k h => by omega)
  | n + 1, d, hd => value_step junk hd (fun k h => by
      have : n = k := by omega
      subst this
      exact value_spec junk n (d + 1) (by omega))

theorem value_step_safe {junk : Int} (hj : junk ≠ - 2 ^ 63) {m n d : Nat} (hd : d + n = 32)
    (hp : ∀ k, n = k + 1 → Elems (value junk m) (d + 1) k)
    (hs : ∀ k, n = k + 1 → ∀ w, Safe (value junk m w (d + 1))) (w : Option Ty) : Safe (value junk (m + 1) w d) := by
  intro st hz
  obtain ⟨c, cs, hcs, _⟩ := peek_ok hz
  match w with
  | none =>
    rw [value_none junk m d st c cs hcs]
    split
    · rename_i e; subst e
      exact string_safe hcs hz
    split
    · rename_i e; subst e
      exact array_safe hd hp hs hcs hz
    split
    · rename_i e; subst e
      exact object_safe hd hp hs hcs hz
    split
    · exact bind_ne_ub (expectStr_safe (by decide) hz) (fun _ _ h => nomatch h)
    split
    · exact bind_ne_ub (expectStr_safe (by decide) hz) (fun _ _ h => nomatch h)
    split
    · exact bind_ne_ub (expectStr_safe (by decide) hz) (fun _ _ h => nomatch h)
    · exact fraction_safe st hz
  | some ty =>
    rw [value_some junk m d st c cs hcs]
    cases ty with
    | str =>
      dsimp only
      split
      · exact fun h => nomatch h
      · rename_i e
        have e : c = 34 := Decidable.not_not.mp e
        subst e
        exact string_safe hcs hz
    | arr =>
      dsimp only
      split
      · exact fun h => nomatch h
      · rename_i e
        have e : c = 91 := Decidable.not_not.mp e
        subst e
        exact array_safe hd hp hs hcs hz
    | obj =>
      dsimp only
      split
      · exact fun h => nomatch h
      · rename_i e
        have e : c = 123 := Decidable.not_not.mp e
        subst e
        exact object_safe hd hp hs hcs hz
    | bool => exact elemBool_safe st hz
    | frac => exact fraction_safe st hz
    | int => exact elemInt_safe hj st hz

theorem value_safe {junk : Int} (hj : junk ≠ - 2 ^ 63) :
    ∀ (n d : Nat), d + n = 32 → ∀ w, Safe (value junk (n + 2) w d)
  | 0, d, hd => value_step_safe hj hd (fun k h => by omega) (fun k h => by omega)
  | n + 1, d, hd => value_step_safe hj hd
      (fun k h => by
        have : n = k := by omega
        subst this
        exact value_spec junk n (d + 1) (by omega))
      (fun k h => by
        have : n = k := by omega
        subst this
        exact value_safe hj n (d + 1) (by omega))

/-! ## C14: integers -/

/-- **C14** (all but one rare state). A literal of digits with or without a minus sign, with anything
behind it that does not continue the number: a value that stands alone or in an object is read exactly
when the magnitude is at most 9223372036854775799, and refused when it is greater; the same goes for an
element of an array of integers, unless the memory of the element held the smallest int64 before.

Missing: that state (`int_overflow`). -/
theorem int_exact_partial (junk : Int) (hj : junk ≠ - 2 ^ 63) (done : List UInt8) (neg : Bool) (ds : List UInt8)
    (hne : ds ≠ []) (hd : Digits ds) (c : UInt8) (cs : List UInt8) (hc : ¬ Digits [c]) (h46 : c ≠ 46)
    (item : St → Res (V × St)) (hitem : item = fraction ∨ item = elemInt junk) :
    item { done := done, rest := sign neg ++ ds ++ c :: cs } =
      if decimal ds ≤ 9223372036854775799 then
        .ok (.num (if neg then - (decimal ds : Int) else decimal ds) 1,
          { done := done ++ (sign neg ++ ds), rest := c :: cs })
      else .err := by
  have hc : isDigit c = false := by
    cases h : isDigit c with
    | false => rfl
    | true =>
      exact absurd (fun x hx => by rw [List.mem_singleton.mp hx]; exact (isDigit_iff c).mp h) hc
  rcases hitem with rfl | rfl
  · split
    · rename_i hm
      exact fraction_complete _ _ _ _ _ ⟨_, _, .int hne hd hm, rfl, rfl⟩ ⟨c, cs, rfl, hc, h46⟩
    · rename_i hm
      unfold fraction
      rw [parseInt_reject done neg hne hd (by omega) hc]
      rfl
  · split
    · rename_i hm
      exact elemInt_complete junk _ _ _ _ _ ⟨_, .int hne hd hm, rfl, rfl⟩ ⟨c, cs, rfl, hc, h46⟩
    · rename_i hm
      unfold elemInt
      rw [parseInt_reject done neg hne hd (by omega) hc, bind_ok']
      dsimp only
      rw [if_neg (fun h => hj h.2)]

/-- The other direction of C14: whatever the two readers of numbers accept as an integer (denominator 1)
is the literal just behind the cursor, and the value is the one the literal stands for, which is within
int64. -/
theorem int_sound (junk : Int) (item : St → Res (V × St)) (hitem : item = fraction ∨ item = elemInt junk) (st st' : St)
    (n : Int) (h : item st = .ok (.num n 1, st')) :
    ∃ neg ds, ds ≠ [] ∧ Digits ds ∧ st.rest = sign neg ++ ds ++ st'.rest ∧ st'.done = st.done ++ (sign neg ++ ds) ∧
      n = (if neg then - (decimal ds : Int) else decimal ds) ∧ - 2 ^ 63 ≤ n ∧ n < 2 ^ 63 := by
  have key : ∃ s, Took st st' s s ∧ NumLit s n 1 := by
    rcases hitem with rfl | rfl
    · obtain ⟨s, s', ht, n', q, hl, rfl, hv⟩ := fraction_sound _ _ _ h
      cases hv
      exact ⟨_, ht, hl⟩
    · obtain ⟨s, s', ht, n', hl, rfl, hv⟩ := elemInt_sound junk _ _ _ h
      cases hv
      exact ⟨_, ht, hl⟩
  obtain ⟨s, ht, hl⟩ := key
  obtain ⟨neg, ds, rfl, hne, hd, hm, hn⟩ := numLit_one hl
  refine ⟨neg, ds, hne, hd, ht.rest, ht.done, hn, ?_, ?_⟩ <;> (rw [hn]; split <;> omega)

/-- `[-99999999999999999999]`. -/
def bigNegText : List UInt8 := [91, 45] ++ List.replicate 20 57 ++ [93, 0]

/-- Negation of C14 in the remaining state: the element parser negates the element although the number was
refused, so with the smallest int64 left over in the memory there is a signed overflow. -/
theorem int_overflow : (match parse (- 2 ^ 63) bigNegText with | .ub => true | _ => false) = true := by
  decide +kernel

example : (match parse 7 bigNegText with | .err => true | _ => false) = true := by decide +kernel

/-- A case of C14: `-9223372036854775799,`. -/
example (junk : Int) (hj : junk ≠ - 2 ^ 63) :
    elemInt junk { done := [91], rest := [45, 57, 50, 50, 51, 51, 55, 50, 48, 51, 54, 56, 53, 52, 55, 55, 53, 55, 57, 57, 44] } =
      .ok (.num (-9223372036854775799) 1,
        { done := [91, 45, 57, 50, 50, 51, 51, 55, 50, 48, 51, 54, 56, 53, 52, 55, 55, 53, 55, 57, 57], rest := [44] }) :=
  int_exact_partial junk hj [91] true [57, 50, 50, 51, 51, 55, 50, 48, 51, 54, 56, 53, 52, 55, 55, 53, 55, 57, 57]
    (by decide) (by unfold Digits; decide) 44 [] (by unfold Digits; decide) (by decide) _ (Or.inr rfl)

/-! ## C15 and C34: whole texts -/

theorem skipSpaces_stop {done : List UInt8} {c : UInt8} {cs : List UInt8} (h : isSpace c = false) :
    skipSpaces done (c :: cs) = .ok { done := done, rest := c :: cs } := by
  rw [skipSpaces, if_neg (by rw [h]; exact fun h => nomatch h.2)]

theorem split_zero : ∀ {a b x y : List UInt8}, 0 ∉ a → 0 ∉ b → a ++ 0 :: x = b ++ 0 :: y → a = b ∧ x = y
  | [], [], _, _, _, _, h => ⟨rfl, (List.cons.inj h).2⟩
  | [], _ :: _, _, _, _, hb, h => absurd (List.mem_cons.mpr (Or.inl (List.cons.inj h).1)) hb
  | _ :: _, [], _, _, ha, _, h => absurd (List.mem_cons.mpr (Or.inl (List.cons.inj h).1.symm)) ha
  | _ :: _, _ :: _, _, _, ha, hb, h => by
    obtain ⟨e, h⟩ := List.cons.inj h
    rw [List.mem_cons, not_or] at ha hb
    obtain ⟨e1, e2⟩ := split_zero ha.2 hb.2 h
    exact ⟨by rw [e, e1], e2⟩

/-- How deep arrays and objects that are not empty are nested in a value. -/
def depth : V → Nat
  | .null | .bool _ | .num _ _ | .str _ _ _ => 0
  | .arr _ [] | .obj [] => 0
  | .arr _ (v :: vs) => 1 + depths (v :: vs)
  | .obj (m :: ms) => 1 + depthms (m :: ms)
where
  depths : List V → Nat
    | [] => 0
    | v :: vs => max (depth v) (depths vs)
  depthms : List (Key × V) → Nat
    | [] => 0
    | (_, v) :: ms => max (depth v) (depthms ms)

theorem depths_le {R : Nat → List UInt8 → List UInt8 → V → Prop} {n : Nat}
    (hR : ∀ o s s' v, R o s s' v → depth v ≤ n) : ∀ {off : Nat} {s s' : List UInt8} {vs : List V},
    Items R off s s' vs → depth.depths vs ≤ n
  | _, _, _, _, .one h _ => by
    unfold depth.depths depth.depths
    exact Nat.max_le.mpr ⟨hR _ _ _ _ h, Nat.zero_le _⟩
  | _, _, _, _, .cons h _ _ hr => by
    unfold depth.depths
    exact Nat.max_le.mpr ⟨hR _ _ _ _ h, depths_le hR hr⟩

theorem depthms_le {R : Nat → List UInt8 → List UInt8 → Key × V → Prop} {n : Nat}
    (hR : ∀ o s s' v, R o s s' v → depth v.2 ≤ n) : ∀ {off : Nat} {s s' : List UInt8} {vs : List (Key × V)},
    Items R off s s' vs → depth.depthms vs ≤ n
  | _, _, _, _, .one h _ => by
    unfold depth.depthms depth.depthms
    exact Nat.max_le.mpr ⟨hR _ _ _ _ h, Nat.zero_le _⟩
  | _, _, _, _, .cons h _ _ hr => by
    unfold depth.depthms
    exact Nat.max_le.mpr ⟨hR _ _ _ _ h, depthms_le hR hr⟩

theorem gr_depth : ∀ (n : Nat) {off : Nat} {s s' : List UInt8} {v : V}, Gr n off s s' v → depth v ≤ n := by
  intro n
  induction n with
  | zero =>
    intro off s s' v h
    unfold Gr at h
    rcases h with ⟨h, _⟩ | ⟨_, _, _, _, rfl⟩ | ⟨_, _, _, _, rfl⟩ | h
    · cases h <;> exact Nat.zero_le _
    · exact Nat.le_refl _
    · exact Nat.le_refl _
    · exact h.elim
  | succ n ih =>
    intro off s s' v h
    unfold Gr at h
    rcases h with ⟨h, _⟩ | ⟨_, _, _, _, rfl⟩ | ⟨_, _, _, _, rfl⟩ | ⟨_, _, _, _, _, _, _, _, _, hi, _, _, rfl⟩ |
      ⟨_, _, _, _, _, _, hi, _, _, rfl⟩
    · cases h <;> exact Nat.zero_le _
    · exact Nat.zero_le _
    · exact Nat.zero_le _
    · have := depths_le (n := n) (fun _ _ _ _ h => ih h.1) hi
      unfold depth
      omega
    · have := depthms_le (n := n) (fun o a a' m h => by
        obtain ⟨_, _, _, _, _, _, _, _, _, _, _, hg⟩ := h
        exact ih hg) hi
      rename_i ms _ _ _ _
      cases ms with
      | nil => exact Nat.zero_le _
      | cons m ms =>
        unfold depth
        omega

/-- **C15**, first part. Parsing a text that has a terminator never reads outside of the text (and does
not run into any other undefined step), unless the memory of an integer array held the smallest int64
before it was written (see `int_overflow`). The parser is a total function: it stops on every text. -/
theorem parse_safe {junk : Int} (hj : junk ≠ - 2 ^ 63) (text : List UInt8) (h : 0 ∈ text) : parse junk text ≠ .ub := by
  unfold parse
  obtain ⟨st, hst⟩ := skipSpaces_safe [] h
  rw [hst, bind_ok']
  obtain ⟨w, _, ht, _⟩ := Took.spaces (st := { done := [], rest := text }) hst
  have hz := ht.mem h
  apply bind_ne_ub (value_safe hj 32 0 rfl none st hz)
  rintro ⟨v, st1⟩ h1
  obtain ⟨s, s', ht1, _⟩ := (value_spec junk 32 0 rfl).any _ _ _ h1
  have hz1 := ht1.mem hz
  dsimp only
  obtain ⟨st2, h2⟩ := skipSpaces_safe st1.done hz1
  rw [h2, bind_ok']
  obtain ⟨w2, _, ht2, _⟩ := Took.spaces h2
  obtain ⟨c, cs, _, hc⟩ := peek_ok (ht2.mem hz1)
  rw [hc, bind_ok']
  split <;> exact fun h => nomatch h

/-- **C34**. A text `t` with a terminator and anything behind it: the parser accepts it with the value `v`
exactly when `t` is a value of the grammar (`Gr`, with at most 32 nested arrays and objects that are not
empty) with white space around it. What the parser leaves in memory is the text with the object keys in
lower case; nothing behind the terminator is changed or has any influence. -/
theorem parse_exact (junk : Int) (t more : List UInt8) (ht : 0 ∉ t) (v : V) (mem : List UInt8) :
    parse junk (t ++ 0 :: more) = .ok (v, mem) ↔
      ∃ w s s' w', Ws w ∧ Ws w' ∧ t = w ++ s ++ w' ∧ mem = w ++ s' ++ w' ++ 0 :: more ∧ Gr 32 w.length s s' v := by
  constructor
  · intro h
    unfold parse at h
    obtain ⟨st, h0, h⟩ := bind_eq_ok h
    obtain ⟨⟨v1, st1⟩, h1, h⟩ := bind_eq_ok h
    obtain ⟨st2, h2, h⟩ := bind_eq_ok h
    obtain ⟨c, hc, h⟩ := bind_eq_ok h
    split at h
    · cases h
    rename_i hc0
    have hc0 : c = 0 := Decidable.not_not.mp hc0
    subst hc0
    cases h
    obtain ⟨w, hw, t0, _⟩ := Took.spaces (st := { done := [], rest := t ++ 0 :: more }) h0
    obtain ⟨s, s', t1, hg⟩ := (value_spec junk 32 0 rfl).any _ _ _ h1
    obtain ⟨w', hw', t2, _⟩ := Took.spaces h2
    obtain ⟨cs, hcs⟩ := peek_eq hc
    have e : t ++ 0 :: more = (w ++ s ++ w') ++ 0 :: cs := by
      have := t0.rest
      dsimp only at this
      rw [this, t1.rest, t2.rest, hcs]
      simp only [List.append_assoc]
    have hz : 0 ∉ w ++ s ++ w' := by
      simp only [List.mem_append, not_or]
      exact ⟨⟨t0.zero, t1.zero⟩, t2.zero⟩
    obtain ⟨e1, e2⟩ := split_zero ht hz e
    subst e2
    have hdone : st.done = w := t0.done.trans (List.nil_append _)
    refine ⟨w, s, s', w', hw, hw', e1, ?_, ?_⟩
    · rw [hcs, t2.done, t1.done, hdone]
    · rw [← hdone]
      exact hg
  · rintro ⟨w, s, s', w', hw, hw', rfl, rfl, hg⟩
    unfold parse
    obtain ⟨c, cs, rfl, hf⟩ := gr_first hg
    have e1 : w ++ (c :: cs) ++ w' ++ 0 :: more = w ++ c :: (cs ++ (w' ++ 0 :: more)) := by
      simp only [List.append_assoc, List.cons_append]
    rw [e1, skipSpaces_complete [] hw (first_facts c hf).1, bind_ok']
    have hstop : Stop (w' ++ 0 :: more) := stop_ws hw' (by decide) (by decide) _
    have := (value_spec junk 32 0 rfl).anyC ([] ++ w) _ _ _ (w' ++ 0 :: more) hg hstop
    rw [List.cons_append] at this
    rw [show maxDepth + 2 = 32 + 2 from rfl, this, bind_ok']
    dsimp only
    rw [skipSpaces_complete _ hw' (by decide), bind_ok', peek_cons, bind_ok', if_neg (by decide)]
    simp only [List.nil_append, List.append_assoc]

/-- **C15**, second part: in what is accepted, at most 32 arrays and objects that are not empty are nested. -/
theorem parse_depth (junk : Int) (text : List UInt8) (v : V) (mem : List UInt8) (h : parse junk text = .ok (v, mem)) :
    depth v ≤ 32 := by
  unfold parse at h
  obtain ⟨st, h0, h⟩ := bind_eq_ok h
  obtain ⟨⟨v1, st1⟩, h1, h⟩ := bind_eq_ok h
  obtain ⟨st2, h2, h⟩ := bind_eq_ok h
  obtain ⟨c, hc, h⟩ := bind_eq_ok h
  split at h
  · cases h
  cases h
  obtain ⟨s, s', t1, hg⟩ := (value_spec junk 32 0 rfl).any _ _ _ h1
  exact gr_depth 32 hg

/-- Reading a string of an accepted text, with the escape flag that the parser gives (`Scalar.str`: whether
there is a backslash between the quotes), gives what the literal denotes. -/
theorem getString_flag (pre b post : List UInt8) :
    (∃ d x, Denotes b d ∧ x.length + d.length = b.length ∧
      getString (pre ++ b ++ post) pre.length b.length (b.contains 92) = .ok (pre ++ d ++ x ++ post, d.length)) ∨
    ((∀ d, ¬ Denotes b d) ∧ getString (pre ++ b ++ post) pre.length b.length (b.contains 92) = .err) := by
  cases h : b.contains 92 with
  | true => exact decode_in_place pre b post
  | false =>
    have hb : '\\'.toUInt8 ∉ b := by
      intro hm
      have : b.contains 92 = true := List.contains_iff_mem.mpr hm
      rw [h] at this
      cases this
    refine Or.inl ⟨b, [], denotes_plain hb, Nat.zero_add _, ?_⟩
    unfold getString
    rw [if_neg (fun h => nomatch h), List.append_nil]

/-! ### Cases -/

/-- The limit is reached and not passed: `[[[...[1]...]]]` with 32 and 33 brackets. -/
def deepText (n : Nat) : List UInt8 := List.replicate n 91 ++ [49] ++ List.replicate n 93 ++ [0]

example : (match parse 0 (deepText 32) with | .ok (v, _) => decide (depth v = 32) | _ => false) = true := by
  decide +kernel
example : (match parse 0 (deepText 33) with | .err => true | _ => false) = true := by decide +kernel

/-- `{"A":[1,-2,[]]}` is no value since the array has two types; `{"A":[[1],[2.5,3]]}` is one. -/
def mixedText : List UInt8 := [123, 34, 65, 34, 58, 91, 49, 44, 45, 50, 44, 91, 93, 93, 125, 0]
def goodText : List UInt8 :=
  [32, 123, 34, 65, 34, 58, 91, 91, 49, 93, 44, 91, 50, 46, 53, 44, 51, 93, 93, 125, 10, 0, 99]

example : parse 0 mixedText = .err := by rfl
example : parse 0 goodText = .ok (.obj [({ off := 3, len := 1, hash := 97 },
    .arr (some .arr) [.arr (some .int) [.num 1 1], .arr (some .frac) [.num 25 10, .num 3 1]])],
    [32, 123, 34, 97, 34, 58, 91, 91, 49, 93, 44, 91, 50, 46, 53, 44, 51, 93, 93, 125, 10, 0, 99]) := by rfl

end Verif.Json
