import Verif.JsonProps

/-!
# Properties C14, C15 and C34, continued: the parser agrees with the grammar
-/

namespace Verif.Json

/-! ## Contracts of parsers -/

theorem bind_eq_ok {α β : Type} {x : Res α} {f : α → Res β} {b : β} (h : x.bind f = .ok b) :
    ∃ a, x = .ok a ∧ f a = .ok b := by
  cases x with
  | ok a => exact ⟨a, rfl, h⟩
  | err => cases h
  | ub => cases h

theorem bind_ne_ub {α β : Type} {x : Res α} {f : α → Res β} (hx : x ≠ .ub) (hf : ∀ a, x = .ok a → f a ≠ .ub) :
    x.bind f ≠ .ub := by
  cases x with
  | ok a => exact hf a rfl
  | err => exact fun h => nomatch h
  | ub => exact absurd rfl hx

/-- The cursor went from `st` to `st'` over the text `s`, which became `s'`. -/
structure Took (st st' : St) (s s' : List UInt8) : Prop where
  rest : st.rest = s ++ st'.rest
  done : st'.done = st.done ++ s'
  len : s'.length = s.length
  zero : 0 ∉ s

theorem Took.trans {a b c : St} {s s' t t' : List UInt8} (h : Took a b s s') (h' : Took b c t t') :
    Took a c (s ++ t) (s' ++ t') where
  rest := by rw [h.rest, h'.rest, List.append_assoc]
  done := by rw [h'.done, h.done, List.append_assoc]
  len := by rw [List.length_append, List.length_append, h.len, h'.len]
  zero := fun hz => (List.mem_append.mp hz).elim h.zero h'.zero

theorem Took.mem {a b : St} {s s' : List UInt8} (h : Took a b s s') (hz : 0 ∈ a.rest) : 0 ∈ b.rest := by
  rw [h.rest] at hz
  exact (List.mem_append.mp hz).resolve_left h.zero

theorem Took.off {a b : St} {s s' : List UInt8} (h : Took a b s s') : b.done.length = a.done.length + s.length := by
  rw [h.done, List.length_append, h.len]

theorem Took.short {a b : St} {s s' : List UInt8} (h : Took a b s s') : a.rest.length = s.length + b.rest.length := by
  rw [h.rest, List.length_append]

theorem Took.adv {st : St} {c : UInt8} {cs : List UInt8} (h : st.rest = c :: cs) (hc : c ≠ 0) :
    Took st (adv st) [c] [c] where
  rest := by unfold Json.adv; rw [h]; rfl
  done := by unfold Json.adv; rw [h]; rfl
  len := rfl
  zero := fun hz => (List.mem_cons.mp hz).elim (fun h => hc h.symm) (fun h => nomatch h)

theorem adv_mk (done : List UInt8) (c : UInt8) (cs : List UInt8) :
    adv { done := done, rest := c :: cs } = { done := done ++ [c], rest := cs } := rfl

theorem Took.spaces {st st' : St} (h : skipSpaces st.done st.rest = .ok st') :
    ∃ w, Ws w ∧ Took st st' w w ∧ ∃ c cs, st'.rest = c :: cs ∧ isSpace c = false := by
  obtain ⟨w, hw, e1, e2, e3⟩ := skipSpaces_sound h
  exact ⟨w, hw, ⟨e1, e2, rfl, hw.zero⟩, e3⟩

/-- What is accepted is in `R`. -/
def Sound {α : Type} (item : St → Res (α × St)) (R : Nat → List UInt8 → List UInt8 → α → Prop) : Prop :=
  ∀ st v st', item st = .ok (v, st') → ∃ s s', Took st st' s s' ∧ R st.done.length s s' v

/-- What can follow a value. -/
def Stop (post : List UInt8) : Prop := ∃ c cs, post = c :: cs ∧ isDigit c = false ∧ c ≠ 46

/-- What is in `R` is accepted. -/
def Complete {α : Type} (item : St → Res (α × St)) (R : Nat → List UInt8 → List UInt8 → α → Prop) : Prop :=
  ∀ (done s s' : List UInt8) (v : α) (post : List UInt8), R done.length s s' v → Stop post →
    item { done := done, rest := s ++ post } = .ok (v, { done := done ++ s', rest := post })

/-- No undefined behaviour when there is a terminator. -/
def Safe {α : Type} (item : St → Res (α × St)) : Prop := ∀ st, 0 ∈ st.rest → item st ≠ .ub

theorem peek_ok {l : List UInt8} (h : 0 ∈ l) : ∃ c cs, l = c :: cs ∧ peek l = .ok c := by
  cases l with
  | nil => cases h
  | cons c cs => exact ⟨c, cs, rfl, rfl⟩

theorem peek_eq {l : List UInt8} {c : UInt8} (h : peek l = .ok c) : ∃ cs, l = c :: cs := by
  cases l with
  | nil => cases h
  | cons d cs => cases h; exact ⟨cs, rfl⟩

theorem peek_cons (c : UInt8) (cs : List UInt8) : peek (c :: cs) = .ok c := rfl

/-! ## Numbers -/

theorem parseInt_sound {st st' : St} {neg : Bool} {n : Nat} (h : parseInt st = .ok (neg, some (n, st'))) :
    ∃ ds, Took st st' (sign neg ++ ds) (sign neg ++ ds) ∧ ds ≠ [] ∧ Digits ds ∧ n = decimal ds ∧
      n ≤ 9223372036854775799 ∧ ∃ c cs, st'.rest = c :: cs ∧ isDigit c = false := by
  unfold parseInt at h
  obtain ⟨c, hc, h⟩ := bind_eq_ok h
  obtain ⟨cs, hcs⟩ := peek_eq hc
  dsimp only at h
  have hsign : ∀ (b : Bool), decide (c = 45) = b →
      Took st (if c = 45 then adv st else st) (sign b) (sign b) := by
    intro b hb
    by_cases h45 : c = 45
    · rw [if_pos h45]
      have : b = true := by rw [← hb]; simpa using h45
      subst this
      subst h45
      exact Took.adv hcs (by decide)
    · rw [if_neg h45]
      have : b = false := by rw [← hb]; simpa using h45
      subst this
      exact ⟨rfl, (List.append_nil _).symm, rfl, fun h => nomatch h⟩
  obtain ⟨d, hd, h⟩ := bind_eq_ok h
  split at h
  · injection h with h; cases h
  · rename_i hdd
    have hdd : isDigit d = true := Decidable.not_not.mp hdd
    split at h
    · rename_i r hr
      injection h with h
      injection h with h1 h2
      injection h2 with h2
      subst h2
      obtain ⟨ds, hds, e1, e2, e3, e4, e5⟩ := intLoop_sound hr
      have ht := hsign neg h1
      have hne : ds ≠ [] := by
        rintro rfl
        obtain ⟨x, xs, hx, hxd⟩ := e5
        obtain ⟨ys, hy⟩ := peek_eq hd
        rw [List.nil_append, hx] at e1
        rw [hy] at e1
        injection e1 with e1
        subst e1
        rw [hdd] at hxd
        cases hxd
      exact ⟨ds, ht.trans ⟨e1, e2, rfl, hds.zero⟩, hne, hds, e3, e4.resolve_left hne, e5⟩
    · injection h with h; cases h
    · cases h

theorem parseInt_start (done : List UInt8) (neg : Bool) {ds : List UInt8} (hne : ds ≠ []) (hd : Digits ds)
    (post : List UInt8) :
    parseInt { done := done, rest := sign neg ++ ds ++ post } =
      match intLoop (done ++ sign neg) 0 (ds ++ post) with
      | .ok r => .ok (neg, some r)
      | .err => .ok (neg, none)
      | .ub => .ub := by
  match ds, hne, hd with
  | d :: ds, _, hd =>
    have hf := digit_facts d hd.head
    unfold parseInt
    cases neg with
    | true =>
      rw [show sign true ++ d :: ds ++ post = 45 :: d :: (ds ++ post) from rfl]
      dsimp only
      rw [peek_cons, bind_ok']
      rw [if_pos rfl, adv_mk]
      dsimp only
      rw [peek_cons, bind_ok', if_neg (by simpa using hd.head)]
      rfl
    | false =>
      rw [show sign false ++ d :: ds ++ post = d :: (ds ++ post) from rfl]
      dsimp only
      rw [peek_cons, bind_ok']
      rw [if_neg hf.2.2.2.1, peek_cons, bind_ok', if_neg (by simpa using hd.head)]
      rw [show decide (d = 45) = false by simpa using hf.2.2.2.1,
        show done ++ sign false = done from List.append_nil _]
      rfl

theorem parseInt_complete (done : List UInt8) (neg : Bool) {ds : List UInt8} (hne : ds ≠ []) (hd : Digits ds)
    (hm : decimal ds ≤ 9223372036854775799) {c : UInt8} {cs : List UInt8} (hc : isDigit c = false) :
    parseInt { done := done, rest := sign neg ++ ds ++ c :: cs } =
      .ok (neg, some (decimal ds, { done := done ++ (sign neg ++ ds), rest := c :: cs })) := by
  rw [parseInt_start done neg hne hd, intLoop_complete _ _ hd hm hc, List.append_assoc]
  rfl

theorem intLoop_reject : ∀ {ds : List UInt8} (done : List UInt8) (v : Nat) {c : UInt8} {cs : List UInt8},
    Digits ds → v ≤ 9223372036854775799 → 9223372036854775799 < decFrom v ds → isDigit c = false →
    intLoop done v (ds ++ c :: cs) = .err
  | [], done, v, c, cs, _, h1, h2, _ => absurd h1 (Nat.not_le.mpr h2)
  | d :: ds, done, v, c, cs, hd, h1, h2, hc => by
    rw [decFrom_cons] at h2
    have hl := lim_eq
    have hl' := llongMax_eq
    have hf := (digit_facts d hd.head).2.2.2.2.2.2.2.2.2.2.2.2
    rw [List.cons_append]
    unfold intLoop
    rw [if_pos hd.head]
    by_cases hv : v > lim
    · rw [if_pos hv]
    · rw [if_neg hv, if_neg (show ¬ v * 10 + (d.toNat - 48) > llongMax by omega)]
      exact intLoop_reject _ _ hd.tail (by omega) h2 hc

theorem parseInt_reject (done : List UInt8) (neg : Bool) {ds : List UInt8} (hne : ds ≠ []) (hd : Digits ds)
    (hm : 9223372036854775799 < decimal ds) {c : UInt8} {cs : List UInt8} (hc : isDigit c = false) :
    parseInt { done := done, rest := sign neg ++ ds ++ c :: cs } = .ok (neg, none) := by
  rw [parseInt_start done neg hne hd, intLoop_reject _ _ hd (by omega) hm hc]

theorem parseInt_safe {st : St} (h : 0 ∈ st.rest) : parseInt st ≠ .ub := by
  unfold parseInt
  obtain ⟨c, cs, hcs, hc⟩ := peek_ok h
  rw [hc, bind_ok']
  dsimp only
  have hz : 0 ∈ (if c = 45 then adv st else st).rest := by
    split
    · rename_i h45
      subst h45
      exact (Took.adv hcs (by decide)).mem h
    · exact h
  generalize hst1 : (if c = 45 then adv st else st) = st1 at hz
  obtain ⟨d, ds, hds, hd⟩ := peek_ok hz
  rw [hd, bind_ok']
  split
  · exact fun h => nomatch h
  · have := intLoop_safe st1.done 0 hz
    split
    · exact fun h => nomatch h
    · exact fun h => nomatch h
    · rename_i e; exact absurd e this

/-- What is read is a number literal. -/
def IsNum (_off : Nat) (s s' : List UInt8) (v : V) : Prop := ∃ n d, NumLit s n d ∧ s' = s ∧ v = .num n d

/-- What is read is a number literal without point. -/
def IsInt (_off : Nat) (s s' : List UInt8) (v : V) : Prop := ∃ n, NumLit s n 1 ∧ s' = s ∧ v = .num n 1

theorem sign_zero (neg : Bool) : 0 ∉ sign neg := by cases neg <;> decide

theorem pow_le19 {k : Nat} (h : 1 * 10 ^ k < 2 ^ 64) : k ≤ 19 := by
  rcases Nat.lt_or_ge 19 k with hk | hk
  · have : 10 ^ 20 ≤ 10 ^ k := Nat.pow_le_pow_right (by decide) hk
    have h20 : (10 : Nat) ^ 20 = 100000000000000000000 := by decide
    omega
  · exact hk

theorem fraction_sound' {st st' : St} {v : V} (h : fraction st = .ok (v, st')) :
    ∃ s n d, Took st st' s s ∧ NumLit s n d ∧ v = .num n d ∧
      ∃ c cs, st'.rest = c :: cs ∧ isDigit c = false ∧ (d = 1 → c ≠ 46) := by
  unfold fraction at h
  obtain ⟨⟨neg, r⟩, hp, h⟩ := bind_eq_ok h
  dsimp only at h
  match r, hp, h with
  | some (n, st1), hp, h =>
    dsimp only at h
    obtain ⟨ds, ht, hne, hd, hn, hm, c, cs, hcs, hcd⟩ := parseInt_sound hp
    rw [hcs, peek_cons, bind_ok'] at h
    by_cases h46 : c = 46
    · rw [if_pos h46] at h
      subst h46
      have ht2 := Took.adv hcs (by decide)
      obtain ⟨d, hdp, h⟩ := bind_eq_ok h
      split at h
      · cases h
      · rename_i hdd
        have hdd : isDigit d = true := Decidable.not_not.mp hdd
        obtain ⟨⟨v', q', st2⟩, hf, h⟩ := bind_eq_ok h
        dsimp only at h
        cases h
        obtain ⟨fs, hfs, e1, e2, e3, e4, e5, x, xs, hx, hxd⟩ := fracLoop_sound hf
        have hfne : fs ≠ [] := by
          rintro rfl
          obtain ⟨ys, hy⟩ := peek_eq hdp
          rw [List.nil_append, hx, hy] at e1
          injection e1 with e1
          subst e1
          rw [hdd] at hxd
          cases hxd
        obtain ⟨hv', hq'⟩ := e5.resolve_left hfne
        have ht3 : Took st st' (sign neg ++ ds ++ [46] ++ fs) (sign neg ++ ds ++ [46] ++ fs) :=
          (ht.trans ht2).trans ⟨e1, e2, rfl, hfs.zero⟩
        have hdec : v' = decimal (ds ++ fs) := by
          rw [e3, hn]
          exact (decFrom_append 0 ds fs).symm
        refine ⟨_, _, _, ht3, .frac (neg := neg) hne hd hfne hfs (pow_le19 (by rw [← e4]; exact hq')) (by rw [← hdec]; exact hv'), ?_, x, xs, hx, hxd, ?_⟩
        · rw [hdec, e4, Nat.one_mul]
          rfl
        · intro h1
          exfalso
          match fs, hfne, h1 with
          | f :: fs, _, h1 =>
            rw [List.length_cons, Nat.pow_succ] at h1
            omega
    · rw [if_neg h46] at h
      cases h
      refine ⟨_, _, _, ht, .int (neg := neg) hne hd (by rw [← hn]; exact hm), ?_, c, cs, hcs, hcd, fun _ => h46⟩
      rw [hn]
      rfl

theorem fraction_sound : Sound fraction IsNum := by
  intro st v st' h
  obtain ⟨s, n, d, ht, hl, hv, _⟩ := fraction_sound' h
  exact ⟨s, s, ht, n, d, hl, rfl, hv⟩

theorem fraction_complete : Complete fraction IsNum := by
  rintro done s s' v post ⟨n, d, hl, rfl, rfl⟩ ⟨c, cs, rfl, hc, h46⟩
  cases hl with
  | @int neg ds hne hd hm =>
    unfold fraction
    rw [parseInt_complete done neg hne hd hm hc, bind_ok']
    dsimp only
    rw [peek_cons, bind_ok', if_neg h46]
    rfl
  | @frac neg ds fs hne hd hfne hf hlen hm =>
    have hdec : decimal (ds ++ fs) = decFrom (decimal ds) fs := decFrom_append 0 ds fs
    have hge := decFrom_ge fs (decimal ds)
    have hpow : 1 * 10 ^ fs.length < 2 ^ 64 := by
      have : 10 ^ fs.length ≤ 10 ^ 19 := Nat.pow_le_pow_right (by decide) hlen
      have h19 : (10 : Nat) ^ 19 = 10000000000000000000 := by decide
      omega
    unfold fraction
    rw [show sign neg ++ ds ++ [46] ++ fs ++ c :: cs = sign neg ++ ds ++ 46 :: (fs ++ c :: cs) by simp,
      parseInt_complete done neg hne hd (by omega) (by decide), bind_ok']
    dsimp only
    rw [peek_cons, bind_ok', if_pos rfl, adv_mk]
    dsimp only
    have hpk : ∃ x xs, fs ++ c :: cs = x :: xs ∧ isDigit x = true := by
      match fs, hfne, hf with
      | f :: fs, _, hf => exact ⟨f, _, rfl, hf.head⟩
    obtain ⟨x, xs, hx, hxd⟩ := hpk
    rw [hx, peek_cons, bind_ok', if_neg (by simpa using hxd), ← hx,
      fracLoop_complete _ _ _ hf (by omega) (Or.inr hpow) hc, bind_ok', hdec, Nat.one_mul]
    simp only [List.append_assoc]
    rfl

theorem fraction_safe : Safe fraction := by
  intro st h
  unfold fraction
  apply bind_ne_ub (parseInt_safe h)
  rintro ⟨neg, r⟩ hr
  match r, hr with
  | none, _ => exact fun h => nomatch h
  | some (n, st1), hr =>
    obtain ⟨ds, ht, _, _, _, _, c, cs, hcs, hcd⟩ := parseInt_sound hr
    dsimp only
    rw [hcs, peek_cons, bind_ok']
    split
    · rename_i h46
      subst h46
      have hz := (Took.adv hcs (by decide)).mem (ht.mem h)
      obtain ⟨d, ds, hds, hd⟩ := peek_ok hz
      rw [hd, bind_ok']
      split
      · exact fun h => nomatch h
      · apply bind_ne_ub (fracLoop_safe _ _ _ hz)
        rintro ⟨a, b, c⟩ _
        exact fun h => nomatch h
    · exact fun h => nomatch h

theorem numLit_one {s : List UInt8} {n : Int} (h : NumLit s n 1) : ∃ neg ds, s = sign neg ++ ds ∧ ds ≠ [] ∧
    Digits ds ∧ decimal ds ≤ 9223372036854775799 ∧ n = if neg then - (decimal ds : Int) else decimal ds := by
  generalize hd : 1 = d at h
  cases h with
  | @int neg ds hne hdd hm => exact ⟨neg, ds, rfl, hne, hdd, hm, rfl⟩
  | @frac neg ds fs _ _ hfne _ _ _ =>
    exfalso
    match fs, hfne, hd with
    | f :: fs, _, hd =>
      rw [List.length_cons, Nat.pow_succ] at hd
      omega

theorem elemInt_sound (junk : Int) : Sound (elemInt junk) IsInt := by
  intro st v st' h
  unfold elemInt at h
  obtain ⟨⟨neg, r⟩, hp, h⟩ := bind_eq_ok h
  dsimp only at h
  match r, hp, h with
  | none, _, h =>
    exfalso
    revert h
    dsimp only
    split <;> exact fun h => nomatch h
  | some (n, st1), hp, h =>
    cases h
    obtain ⟨ds, ht, hne, hd, hn, hm, _⟩ := parseInt_sound hp
    refine ⟨_, _, ht, _, .int (neg := neg) hne hd (by rw [← hn]; exact hm), rfl, ?_⟩
    rw [hn]
    rfl

theorem elemInt_complete (junk : Int) : Complete (elemInt junk) IsInt := by
  rintro done s s' v post ⟨n, hl, rfl, rfl⟩ ⟨c, cs, rfl, hc, h46⟩
  obtain ⟨neg, ds, rfl, hne, hd, hm, rfl⟩ := numLit_one hl
  unfold elemInt
  rw [parseInt_complete done neg hne hd hm hc]
  rfl

theorem elemInt_safe {junk : Int} (hj : junk ≠ - 2 ^ 63) : Safe (elemInt junk) := by
  intro st h
  unfold elemInt
  apply bind_ne_ub (parseInt_safe h)
  rintro ⟨neg, r⟩ hr
  match r with
  | none =>
    dsimp only
    rw [if_neg (fun h => hj h.2)]
    exact fun h => nomatch h
  | some (n, st1) => exact fun h => nomatch h

/-! ## Strings, words, keys -/

/-- What is read is a string literal. -/
def IsStr (off : Nat) (s s' : List UInt8) (v : V) : Prop :=
  ∃ b, Body b ∧ s = 34 :: (b ++ [34]) ∧ s' = s ∧ v = .str (off + 1) b.length (b.contains 92)

theorem body_quoted_zero {b : List UInt8} (h : Body b) : 0 ∉ 34 :: (b ++ [34]) := by
  intro hz
  rcases List.mem_cons.mp hz with hz | hz
  · revert hz; decide
  · rcases List.mem_append.mp hz with hz | hz
    · exact h.zero hz
    · revert hz; decide

theorem string_sound {st st' : St} {v : V} {cs : List UInt8} (hcs : st.rest = 34 :: cs)
    (h : string st = .ok (v, st')) : ∃ s s', Took st st' s s' ∧ IsStr st.done.length s s' v := by
  unfold string at h
  obtain ⟨⟨len, esc, st1⟩, hl, h⟩ := bind_eq_ok h
  cases h
  obtain ⟨b, hb, e1, e2, e3, e4⟩ := strLoop_sound _ (Nat.lt_succ_self _) hl
  have ht := Took.adv hcs (by decide)
  refine ⟨34 :: (b ++ [34]), 34 :: (b ++ [34]), ⟨?_, ?_, rfl, body_quoted_zero hb⟩, b, hb, rfl, rfl, ?_⟩
  · rw [ht.rest, e1]; simp
  · rw [e2, ht.done]; simp
  · rw [e3, e4, ht.off, Nat.zero_add]
    rfl

theorem string_complete : Complete string IsStr := by
  rintro done s s' v post ⟨b, hb, rfl, rfl, rfl⟩ _
  unfold string
  rw [List.cons_append, adv_mk]
  dsimp only
  rw [List.append_assoc, show [34] ++ post = 34 :: post from rfl, strLoop_complete hb, bind_ok']
  simp

theorem string_safe {st : St} {cs : List UInt8} (hcs : st.rest = 34 :: cs) (h : 0 ∈ st.rest) : string st ≠ .ub := by
  unfold string
  apply bind_ne_ub (strLoop_safe _ (Nat.lt_succ_self _) ((Took.adv hcs (by decide)).mem h) _ _ _)
  rintro ⟨a, b, c⟩ _
  exact fun h => nomatch h

theorem expect_sound {ch : UInt8} (hch : ch ≠ 0) {st st' : St} (h : expect ch st = .ok st') :
    Took st st' [ch] [ch] := by
  unfold expect at h
  obtain ⟨c, hc, h⟩ := bind_eq_ok h
  obtain ⟨cs, hcs⟩ := peek_eq hc
  split at h
  · cases h
  · rename_i e
    cases h
    have : c = ch := Decidable.not_not.mp e
    subst this
    exact Took.adv hcs hch

theorem expect_complete (ch : UInt8) (done post : List UInt8) :
    expect ch { done := done, rest := ch :: post } = .ok { done := done ++ [ch], rest := post } := by
  unfold expect
  rw [peek_cons, bind_ok', if_neg (by simp)]
  rfl

theorem expect_safe {ch : UInt8} {st : St} (h : 0 ∈ st.rest) : expect ch st ≠ .ub := by
  unfold expect
  obtain ⟨c, cs, _, hc⟩ := peek_ok h
  rw [hc, bind_ok']
  split <;> exact fun h => nomatch h

theorem expectStr_sound : ∀ {w : List UInt8}, 0 ∉ w → ∀ {st st' : St}, expectStr w st = .ok st' → Took st st' w w
  | [], _, st, st', h => by
    cases h
    exact ⟨rfl, (List.append_nil _).symm, rfl, fun h => nomatch h⟩
  | c :: w, hw, st, st', h => by
    unfold expectStr at h
    obtain ⟨st1, h1, h⟩ := bind_eq_ok h
    rw [List.mem_cons, not_or] at hw
    exact (expect_sound (Ne.symm hw.1) h1).trans (expectStr_sound hw.2 h)

theorem expectStr_complete : ∀ (w done post : List UInt8),
    expectStr w { done := done, rest := w ++ post } = .ok { done := done ++ w, rest := post }
  | [], done, post => by rw [List.append_nil]; rfl
  | c :: w, done, post => by
    unfold expectStr
    rw [List.cons_append, expect_complete, bind_ok', expectStr_complete, List.append_assoc]
    rfl

theorem expectStr_safe : ∀ {w : List UInt8}, 0 ∉ w → ∀ {st : St}, 0 ∈ st.rest → expectStr w st ≠ .ub
  | [], _, _, _ => fun h => nomatch h
  | c :: w, hw, st, h => by
    unfold expectStr
    rw [List.mem_cons, not_or] at hw
    apply bind_ne_ub (expect_safe h)
    intro st1 h1
    exact expectStr_safe hw.2 ((expect_sound (Ne.symm hw.1) h1).mem h)

theorem key_sound {st st' : St} {k : Key} (h : key st = .ok (k, st')) :
    ∃ b, Body b ∧ Took st st' (34 :: (b ++ [34])) (34 :: (lowerKey b ++ [34])) ∧
      k = { off := st.done.length + 1, len := b.length, hash := hashOf (hashed (lowerKey b)) } := by
  unfold key at h
  obtain ⟨st1, h1, h⟩ := bind_eq_ok h
  obtain ⟨⟨len, hh, st2⟩, h2, h⟩ := bind_eq_ok h
  cases h
  have ht := expect_sound (by decide) h1
  obtain ⟨b, hb, e1, e2, e3, e4⟩ := keyLoop_sound _ (Nat.lt_succ_self _) h2
  refine ⟨b, hb, ⟨?_, ?_, ?_, body_quoted_zero hb⟩, ?_⟩
  · rw [ht.rest, e1]; simp
  · rw [e2, ht.done]; simp
  · simp [lowerKey_length hb]
  · rw [e3, e4, ht.off, Nat.zero_add]
    rfl

theorem key_complete {b : List UInt8} (hb : Body b) (done post : List UInt8) :
    key { done := done, rest := 34 :: (b ++ [34]) ++ post } =
      .ok ({ off := done.length + 1, len := b.length, hash := hashOf (hashed (lowerKey b)) },
        { done := done ++ 34 :: (lowerKey b ++ [34]), rest := post }) := by
  unfold key
  rw [List.cons_append, expect_complete, bind_ok', List.append_assoc, show [34] ++ post = 34 :: post from rfl]
  dsimp only
  rw [keyLoop_complete hb, bind_ok', hashOf_eq]
  simp

theorem key_safe {st : St} (h : 0 ∈ st.rest) : key st ≠ .ub := by
  unfold key
  apply bind_ne_ub (expect_safe h)
  intro st1 h1
  apply bind_ne_ub (keyLoop_safe _ (Nat.lt_succ_self _) ((expect_sound (by decide) h1).mem h) _ _ _)
  rintro ⟨a, b, c⟩ _
  exact fun h => nomatch h

/-- What is read is `true` or `false`. -/
def IsBool (_off : Nat) (s s' : List UInt8) (v : V) : Prop :=
  s' = s ∧ ((s = [116, 114, 117, 101] ∧ v = .bool true) ∨ (s = [102, 97, 108, 115, 101] ∧ v = .bool false))

theorem elemBool_sound : Sound elemBool IsBool := by
  intro st v st' h
  unfold elemBool at h
  obtain ⟨c, hc, h⟩ := bind_eq_ok h
  split at h
  · obtain ⟨st1, h1, h⟩ := bind_eq_ok h
    cases h
    exact ⟨_, _, expectStr_sound (by decide) h1, rfl, Or.inl ⟨rfl, rfl⟩⟩
  · split at h
    · obtain ⟨st1, h1, h⟩ := bind_eq_ok h
      cases h
      exact ⟨_, _, expectStr_sound (by decide) h1, rfl, Or.inr ⟨rfl, rfl⟩⟩
    · cases h

theorem elemBool_complete : Complete elemBool IsBool := by
  rintro done s s' v post ⟨rfl, ⟨rfl, rfl⟩ | ⟨rfl, rfl⟩⟩ _
  · unfold elemBool
    rw [show ([116, 114, 117, 101] ++ post : List UInt8) = 116 :: ([114, 117, 101] ++ post) from rfl]
    dsimp only
    rw [peek_cons, bind_ok', if_pos rfl]
    rw [show (116 :: ([114, 117, 101] ++ post) : List UInt8) = [116, 114, 117, 101] ++ post from rfl,
      expectStr_complete]
    rfl
  · unfold elemBool
    rw [show ([102, 97, 108, 115, 101] ++ post : List UInt8) = 102 :: ([97, 108, 115, 101] ++ post) from rfl]
    dsimp only
    rw [peek_cons, bind_ok', if_neg (by decide), if_pos rfl]
    rw [show (102 :: ([97, 108, 115, 101] ++ post) : List UInt8) = [102, 97, 108, 115, 101] ++ post from rfl,
      expectStr_complete]
    rfl

theorem elemBool_safe : Safe elemBool := by
  intro st h
  unfold elemBool
  obtain ⟨c, cs, _, hc⟩ := peek_ok h
  rw [hc, bind_ok']
  split
  · apply bind_ne_ub (expectStr_safe (by decide) h)
    intro _ _
    exact fun h => nomatch h
  · split
    · apply bind_ne_ub (expectStr_safe (by decide) h)
      intro _ _
      exact fun h => nomatch h
    · exact fun h => nomatch h

/-! ## Items -/

theorem stop_ws {w : List UInt8} (hw : Ws w) {c : UInt8} (hc : isDigit c = false) (h46 : c ≠ 46) (cs : List UInt8) :
    Stop (w ++ c :: cs) := by
  cases w with
  | nil => exact ⟨c, cs, rfl, hc, h46⟩
  | cons d w =>
    have := space_facts d ((isSpace_iff d).mpr (hw d (List.mem_cons_self ..)))
    exact ⟨d, _, rfl, this.2.1, this.2.2.1⟩

theorem loop_sound {α : Type} {item : St → Res (α × St)} {R : Nat → List UInt8 → List UInt8 → α → Prop}
    (hi : Sound item R) {close : UInt8} (hc0 : close ≠ 0) : ∀ {k count : Nat} {st st' : St} {vs : List α},
    loop close item k count st = .ok (vs, st') →
    ∃ t t', Took st st' (t ++ [close]) (t' ++ [close]) ∧ Items R st.done.length t t' vs ∧ vs ≠ [] ∧
      count + vs.length ≤ 524288
  | 0, _, _, _, _, h => nomatch h
  | k + 1, count, st, st', vs, h => by
    unfold loop at h
    split at h
    · cases h
    · rename_i hcount
      have hmax : maxElements = 524288 := rfl
      rw [hmax] at hcount
      obtain ⟨⟨v, st1⟩, h1, h⟩ := bind_eq_ok h
      obtain ⟨st2, h2, h⟩ := bind_eq_ok h
      obtain ⟨c, hc, h⟩ := bind_eq_ok h
      obtain ⟨cs, hcs⟩ := peek_eq hc
      obtain ⟨s, s', ht1, hr⟩ := hi _ _ _ h1
      obtain ⟨w, hw, ht2, _⟩ := Took.spaces h2
      by_cases hcl : c = close
      · rw [if_pos hcl] at h
        cases h
        subst hcl
        have ht3 := Took.adv hcs hc0
        refine ⟨s ++ w, s' ++ w, (ht1.trans ht2).trans ht3, .one hr hw, by simp, by simp; omega⟩
      · rw [if_neg hcl] at h
        by_cases h44 : c = 44
        · rw [if_pos h44] at h
          obtain ⟨st3, h3, h⟩ := bind_eq_ok h
          obtain ⟨⟨vs1, st4⟩, h4, h⟩ := bind_eq_ok h
          cases h
          subst h44
          have ht3 := Took.adv hcs (by decide)
          obtain ⟨w', hw', ht4, _⟩ := Took.spaces h3
          obtain ⟨t, t', ht5, hit, _, hn⟩ := loop_sound hi hc0 h4
          have hto := ((ht1.trans ht2).trans ht3).trans ht4
          rw [hto.off] at hit
          refine ⟨s ++ w ++ [44] ++ w' ++ t, s' ++ w ++ [44] ++ w' ++ t', ?_, .cons hr hw hw' ?_, by simp, ?_⟩
          · have := hto.trans ht5
            simpa only [List.append_assoc] using this
          · simpa only [List.length_append, List.length_singleton, Nat.add_assoc] using hit
          · rw [List.length_cons]; omega
        · rw [if_neg h44] at h
          cases h

theorem items_length {α : Type} {R : Nat → List UInt8 → List UInt8 → α → Prop} {off : Nat} {t t' : List UInt8}
    {vs : List α} (h : Items R off t t' vs) : vs.length ≤ t.length + 1 := by
  induction h with
  | one => simp
  | cons _ _ _ _ ih =>
    simp only [List.length_append, List.length_cons, List.length_nil]
    omega

theorem loop_complete {α : Type} {item : St → Res (α × St)} {R : Nat → List UInt8 → List UInt8 → α → Prop}
    (hi : Complete item R) (hs : ∀ off s s' v, R off s s' v → s'.length = s.length ∧
      ∃ c cs, s = c :: cs ∧ isSpace c = false)
    {close : UInt8} (hcs : isSpace close = false) (hcd : isDigit close = false) (hc46 : close ≠ 46)
    (hc44 : close ≠ 44) {off : Nat} {t t' : List UInt8} {vs : List α} (h : Items R off t t' vs) :
    ∀ (k count : Nat) (done post : List UInt8), off = done.length → vs.length ≤ k → count + vs.length ≤ 524288 →
    loop close item k count { done := done, rest := t ++ close :: post } =
      .ok (vs, { done := done ++ t' ++ [close], rest := post }) := by
  have hmax : maxElements = 524288 := rfl
  induction h with
  | @one off s s' v w hr hw =>
    intro k count done post hoff hk hn
    subst hoff
    obtain ⟨k, rfl⟩ : ∃ j, k = j + 1 := ⟨k - 1, by simp at hk; omega⟩
    unfold loop
    simp only [List.length_cons, List.length_nil] at hn
    rw [if_neg (by omega), List.append_assoc, hi done s s' v _ hr (stop_ws hw hcd hc46 _), bind_ok']
    dsimp only
    rw [skipSpaces_complete _ hw hcs, bind_ok']
    dsimp only
    rw [peek_cons, bind_ok', if_pos rfl, adv_mk]
    simp
  | @cons off s s' v w w' t t' vs hr hw hw' hit ih =>
    intro k count done post hoff hk hn
    subst hoff
    simp only [List.length_cons] at hk hn
    obtain ⟨k, rfl⟩ : ∃ j, k = j + 1 := ⟨k - 1, by omega⟩
    unfold loop
    have e : s ++ w ++ [44] ++ w' ++ t ++ close :: post = s ++ (w ++ 44 :: (w' ++ (t ++ close :: post))) := by simp
    rw [if_neg (by omega), e, hi done s s' v _ hr (stop_ws hw (by decide) (by decide) _), bind_ok']
    dsimp only
    rw [skipSpaces_complete _ hw (by decide), bind_ok']
    dsimp only
    rw [peek_cons, bind_ok', if_neg (Ne.symm hc44), if_pos rfl, adv_mk]
    dsimp only
    have hhead : ∃ c cs, t ++ close :: post = c :: cs ∧ isSpace c = false := by
      cases hit with
      | one hr1 _ =>
        obtain ⟨_, c, cs, e, hc⟩ := hs _ _ _ _ hr1
        exact ⟨c, _, by rw [e]; rfl, hc⟩
      | cons hr1 _ _ _ =>
        obtain ⟨_, c, cs, e, hc⟩ := hs _ _ _ _ hr1
        exact ⟨c, _, by rw [e]; rfl, hc⟩
    obtain ⟨c, cs, e2, hc⟩ := hhead
    rw [e2, skipSpaces_complete _ hw' hc, bind_ok', ← e2,
      ih k (count + 1) (done ++ s' ++ w ++ [44] ++ w') post ?_ (by omega) (by omega), bind_ok']
    · simp
    · have := (hs _ _ _ _ hr).1
      simp only [List.length_append, List.length_singleton, this]

theorem loop_safe {α : Type} {item : St → Res (α × St)} {R : Nat → List UInt8 → List UInt8 → α → Prop}
    (hi : Sound item R) (hsafe : Safe item) (close : UInt8) :
    ∀ (k count : Nat) (st : St), 0 ∈ st.rest → st.rest.length < k → loop close item k count st ≠ .ub
  | 0, _, _, _, h => absurd h (Nat.not_lt_zero _)
  | k + 1, count, st, h, hk => by
    unfold loop
    split
    · exact fun h => nomatch h
    · apply bind_ne_ub (hsafe st h)
      rintro ⟨v, st1⟩ h1
      obtain ⟨s, s', ht1, _⟩ := hi _ _ _ h1
      have hz1 := ht1.mem h
      obtain ⟨st2, h2⟩ := skipSpaces_safe st1.done hz1
      dsimp only
      rw [h2, bind_ok']
      obtain ⟨w, hw, ht2, _⟩ := Took.spaces h2
      have hz2 := ht2.mem hz1
      obtain ⟨c, cs, hcs, hc⟩ := peek_ok hz2
      rw [hc, bind_ok']
      split
      · exact fun h => nomatch h
      · split
        · rename_i h44
          subst h44
          have ht3 := Took.adv hcs (by decide)
          have hz3 := ht3.mem hz2
          obtain ⟨st3, h3⟩ := skipSpaces_safe (adv st2).done hz3
          obtain ⟨w', hw', ht4, _⟩ := Took.spaces h3
          have l1 := ht1.short
          have l2 := ht2.short
          have l3 := ht3.short
          have l4 := ht4.short
          rw [List.length_singleton] at l3
          rw [h3, bind_ok']
          apply bind_ne_ub (loop_safe hi hsafe close k (count + 1) st3 (ht4.mem hz3) (by omega))
          rintro ⟨vs, st4⟩ _
          exact fun h => nomatch h
        · exact fun h => nomatch h

end Verif.Json
