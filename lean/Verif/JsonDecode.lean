import Verif.Json

/-!
# Property C16: decoding of JSON strings
-/

namespace Verif.Json

/-! ## Specification -/

/-- Value of a hexadecimal digit. -/
def hexVal (c : UInt8) : Option Nat :=
  (['0', '1', '2', '3', '4', '5', '6', '7', '8', '9', 'a', 'b', 'c', 'd', 'e', 'f'].findIdx?
      fun x => x.toNat = c.toNat) <|>
  (['A', 'B', 'C', 'D', 'E', 'F'].findIdx? fun x => x.toNat = c.toNat).map (· + 10)

/-- Value of four hexadecimal digits. -/
def hex4 (a b c d : UInt8) : Option Nat :=
  match hexVal a, hexVal b, hexVal c, hexVal d with
  | some a, some b, some c, some d => some (a * 4096 + b * 256 + c * 16 + d)
  | _, _, _, _ => none

/-- UTF-8 for code points below 65536, also for those that are not characters (surrogates). -/
def utf8 (n : Nat) : List UInt8 :=
  if n < 128 then [UInt8.ofNat n]
  else if n < 2048 then [UInt8.ofNat (192 + n / 64), UInt8.ofNat (128 + n % 64)]
  else [UInt8.ofNat (224 + n / 4096), UInt8.ofNat (128 + n / 64 % 64), UInt8.ofNat (128 + n % 64)]

/-- The characters that can follow a backslash, and what they stand for. -/
def escapes : List (UInt8 × UInt8) :=
  [('"'.toUInt8, '"'.toUInt8), ('\\'.toUInt8, '\\'.toUInt8), ('/'.toUInt8, '/'.toUInt8), ('b'.toUInt8, 8),
   ('f'.toUInt8, 12), ('n'.toUInt8, 10), ('r'.toUInt8, 13), ('t'.toUInt8, 9)]

/-- `Denotes s d`: the string literal body `s` stands for the bytes `d`. -/
inductive Denotes : List UInt8 → List UInt8 → Prop where
  | nil : Denotes [] []
  | plain {c s d} : c ≠ '\\'.toUInt8 → Denotes s d → Denotes (c :: s) (c :: d)
  | esc {c x s d} : (c, x) ∈ escapes → Denotes s d → Denotes ('\\'.toUInt8 :: c :: s) (x :: d)
  | uni {h1 h2 h3 h4 n s d} : hex4 h1 h2 h3 h4 = some n → Denotes s d →
      Denotes ('\\'.toUInt8 :: 'u'.toUInt8 :: h1 :: h2 :: h3 :: h4 :: s) (utf8 n ++ d)

/-! ## Lemmas -/

/-- Statements about a byte can be checked for all 256 values. -/
theorem forall_byte {P : UInt8 → Prop} (h : ∀ n : Fin 256, P (UInt8.ofFin n)) (c : UInt8) : P c := h c.toFin

theorem hexDigit_eq : ∀ c, hexDigit c = hexVal c :=
  forall_byte (by decide +kernel)

theorem hexVal_lt : ∀ c, ∀ x, hexVal c = some x → x < 16 := by
  intro c x h
  have : ∀ c, ∀ x ∈ hexVal c, x < 16 := forall_byte (by decide +kernel)
  exact this c x h

theorem escChar_some : ∀ c x, escChar c = some x ↔ (c, x) ∈ escapes := by
  intro c x
  have h : ∀ c, ∀ x, escChar c = some x → (c, x) ∈ escapes := by
    intro c x h
    have : ∀ c, ∀ x ∈ escChar c, (c, x) ∈ escapes := forall_byte (by decide +kernel)
    exact this c x h
  refine ⟨h c x, ?_⟩
  have : ∀ q ∈ escapes, escChar q.1 = some q.2 := by decide
  exact this (c, x)

theorem unicodeHex_eq (a b c d : UInt8) : unicodeHex [a, b, c, d] = (hex4 a b c d).map utf8 := by
  unfold unicodeHex hextoi hextoi hextoi hextoi hextoi hex4
  rw [hexDigit_eq, hexDigit_eq, hexDigit_eq, hexDigit_eq]
  cases ha : hexVal a with
  | none => rfl
  | some a' =>
  cases hb : hexVal b with
  | none => rfl
  | some b' =>
  cases hc : hexVal c with
  | none => rfl
  | some c' =>
  cases hd : hexVal d with
  | none => rfl
  | some d' =>
  have := hexVal_lt _ _ ha
  have := hexVal_lt _ _ hb
  have := hexVal_lt _ _ hc
  have := hexVal_lt _ _ hd
  have e : (((0 * 16 + a') * 16 + b') * 16 + c') * 16 + d' = a' * 4096 + b' * 256 + c' * 16 + d' := by omega
  simp only [Option.bind_some, Option.map_some, e]
  generalize hn : a' * 4096 + b' * 256 + c' * 16 + d' = n
  have hn : n < 65536 := by omega
  clear e
  have h1 : ∀ x, x < 32 → x ||| 0xc0 = 192 + x := by decide
  have h2 : ∀ x, x < 64 → x ||| 0x80 = 128 + x := by decide
  have h3 : ∀ x, x < 16 → x ||| 0xe0 = 224 + x := by decide
  have hand : ∀ x, x &&& 0x3f = x % 64 := fun x => Nat.and_two_pow_sub_one_eq_mod x 6
  unfold utf8
  rw [hand, hand, Nat.shiftRight_eq_div_pow, Nat.shiftRight_eq_div_pow]
  by_cases c1 : n < 128
  · rw [if_pos c1, if_pos c1]
  · rw [if_neg c1, if_neg c1]
    by_cases c2 : n < 2048
    · rw [if_pos c2, if_pos c2, h1 _ (by omega), h2 _ (by omega)]
    · rw [if_neg c2, if_neg c2, if_pos (by omega), h3 _ (by omega), h2 _ (by omega), h2 _ (by omega)]

theorem utf8_length (n : Nat) : 1 ≤ (utf8 n).length ∧ (utf8 n).length ≤ 3 := by
  unfold utf8
  split
  · simp
  · split <;> simp

/-- What the decoder makes of a literal body: a function of the bytes alone. -/
def dec : Nat → List UInt8 → Option (List UInt8)
  | 0, _ => none
  | _ + 1, [] => some []
  | k + 1, c :: s =>
    if c ≠ 92 then (dec k s).map (c :: ·)
    else match s with
      | [] => none
      | d :: s1 => match escChar d with
        | some x => (dec k s1).map (x :: ·)
        | none =>
          if d ≠ 117 then none
          else match s1 with
            | h1 :: h2 :: h3 :: h4 :: s2 =>
              (hex4 h1 h2 h3 h4).bind fun n => (dec k s2).map (utf8 n ++ ·)
            | _ => none

theorem dec_denotes : ∀ k s d, dec k s = some d → Denotes s d
  | 0, _, _, h => nomatch h
  | k + 1, [], d, h => by
    rw [dec] at h
    cases h
    exact .nil
  | k + 1, c :: s, d, h => by
    unfold dec at h
    by_cases hc : c ≠ 92
    · rw [if_pos hc, Option.map_eq_some_iff] at h
      obtain ⟨d', h, rfl⟩ := h
      exact .plain hc (dec_denotes k _ _ h)
    · rw [if_neg hc] at h
      have hc : c = 92 := Decidable.not_not.mp hc
      subst hc
      match s, h with
      | d1 :: s1, h =>
        dsimp only at h
        cases he : escChar d1 with
        | some x =>
          rw [he] at h
          dsimp only at h
          rw [Option.map_eq_some_iff] at h
          obtain ⟨d', h', rfl⟩ := h
          exact .esc ((escChar_some _ _).mp he) (dec_denotes k _ _ h')
        | none =>
          rw [he] at h
          dsimp only at h
          by_cases hd : d1 ≠ 117
          · rw [if_pos hd] at h; cases h
          · rw [if_neg hd] at h
            have hd : d1 = 117 := Decidable.not_not.mp hd
            subst hd
            match s1, h with
            | h1 :: h2 :: h3 :: h4 :: s2, h =>
              dsimp only at h
              rw [Option.bind_eq_some_iff] at h
              obtain ⟨n, hn, h'⟩ := h
              rw [Option.map_eq_some_iff] at h'
              obtain ⟨d', h'', rfl⟩ := h'
              exact .uni hn (dec_denotes k _ _ h'')

theorem denotes_dec {s d : List UInt8} (h : Denotes s d) : ∀ k, s.length < k → dec k s = some d := by
  induction h with
  | nil =>
    intro k hk
    obtain ⟨k, rfl⟩ : ∃ j, k = j + 1 := ⟨k - 1, by simp at hk; omega⟩
    rfl
  | @plain c s d hc _ ih =>
    intro k hk
    obtain ⟨k, rfl⟩ : ∃ j, k = j + 1 := ⟨k - 1, by omega⟩
    rw [List.length_cons] at hk
    unfold dec
    rw [if_pos (show c ≠ 92 from hc), ih k (by omega)]
    rfl
  | @esc c x s d hx _ ih =>
    intro k hk
    obtain ⟨k, rfl⟩ : ∃ j, k = j + 1 := ⟨k - 1, by omega⟩
    rw [List.length_cons, List.length_cons] at hk
    unfold dec
    rw [if_neg (by decide)]
    dsimp only
    rw [(escChar_some _ _).mpr hx]
    dsimp only
    rw [ih k (by omega)]
    rfl
  | @uni h1 h2 h3 h4 n s d hn _ ih =>
    intro k hk
    obtain ⟨k, rfl⟩ : ∃ j, k = j + 1 := ⟨k - 1, by omega⟩
    simp only [List.length_cons] at hk
    unfold dec
    rw [if_neg (by decide)]
    dsimp only
    rw [show escChar ('u'.toUInt8) = none from rfl]
    dsimp only
    rw [if_neg (by decide), hn, ih k (by omega)]
    rfl

/-! ## Memory -/

theorem load_ok {m : List UInt8} {i : Nat} {c : UInt8} (h : m[i]? = some c) : load m i = .ok c := by
  unfold load; rw [h]

theorem store_ok {m : List UInt8} {i : Nat} (h : i < m.length) (c : UInt8) : store m i c = .ok (m.set i c) := by
  unfold store; rw [if_pos h]

/-- `m1` is `m` with `bs` at offset `p`. -/
def Wrote (m m1 : List UInt8) (p : Nat) (bs : List UInt8) : Prop :=
  m1.length = m.length ∧ (∀ i, i < p ∨ p + bs.length ≤ i → m1[i]? = m[i]?) ∧
  ∀ i, i < bs.length → m1[p + i]? = bs[i]?

theorem storeAll_spec : ∀ (bs m : List UInt8) (p : Nat), p + bs.length ≤ m.length →
    ∃ m1, storeAll m p bs = .ok m1 ∧ Wrote m m1 p bs
  | [], m, p, _ => ⟨m, rfl, rfl, fun _ _ => rfl, fun _ h => absurd h (Nat.not_lt_zero _)⟩
  | c :: cs, m, p, h => by
    rw [List.length_cons] at h
    obtain ⟨m1, e, hl, h1, h2⟩ := storeAll_spec cs (m.set p c) (p + 1) (by rw [List.length_set]; omega)
    refine ⟨m1, ?_, ?_, ?_, ?_⟩
    · unfold storeAll
      rw [store_ok (by omega)]
      exact e
    · rw [hl, List.length_set]
    · intro i hi
      rw [List.length_cons] at hi
      rw [h1 i (by omega), List.getElem?_set_ne (by omega)]
    · intro i hi
      rw [List.length_cons] at hi
      cases i with
      | zero =>
        rw [Nat.add_zero, h1 p (by omega), List.getElem?_set_self (by omega)]
        rfl
      | succ j =>
        have := h2 j (by omega)
        rw [List.getElem?_cons_succ, ← this]
        congr 1
        omega

theorem store_wrote {m : List UInt8} {p : Nat} (h : p < m.length) (c : UInt8) :
    ∃ m1, store m p c = .ok m1 ∧ Wrote m m1 p [c] := by
  obtain ⟨m1, e, w⟩ := storeAll_spec [c] m p h
  refine ⟨m1, ?_, w⟩
  unfold storeAll at e
  rw [store_ok h] at e ⊢
  exact e

/-- Outcome of decoding the source `s` to offset `p`. -/
def Outcome (m : List UInt8) (p n : Nat) (r : Option (List UInt8)) (o : Res (List UInt8 × Nat)) : Prop :=
  match r with
  | none => o = .err
  | some d => d.length ≤ n ∧ ∃ m1, o = .ok (m1, p + d.length) ∧ m1.length = m.length ∧
      (∀ i, i < p ∨ p + n ≤ i → m1[i]? = m[i]?) ∧ ∀ i, i < d.length → m1[p + i]? = d[i]?

theorem Outcome.step {m m1 : List UInt8} {p n n0 : Nat} {bs : List UInt8} {r : Option (List UInt8)}
    {o : Res (List UInt8 × Nat)} (w : Wrote m m1 p bs) (hn : bs.length + n ≤ n0)
    (h : Outcome m1 (p + bs.length) n r o) : Outcome m p n0 (r.map (bs ++ ·)) o := by
  cases r with
  | none => exact h
  | some d =>
    obtain ⟨hd, m2, e, hl, h1, h2⟩ := h
    obtain ⟨wl, w1, w2⟩ := w
    refine ⟨by rw [List.length_append]; omega, m2, ?_, by rw [hl, wl], ?_, ?_⟩
    · rw [e, List.length_append, Nat.add_assoc]
    · intro i hi
      rw [h1 i (by omega), w1 i (by omega)]
    · intro i hi
      rw [List.length_append] at hi
      by_cases hib : i < bs.length
      · rw [h1 (p + i) (by omega), w2 i hib, List.getElem?_append_left hib]
      · rw [List.getElem?_append_right (by omega), ← h2 (i - bs.length) (by omega)]
        congr 1
        omega

theorem bind_ok' {α β : Type} (a : α) (f : α → Res β) : (Res.ok a).bind f = f a := rfl

theorem decodeLoop_spec : ∀ (k : Nat) (s m : List UInt8) (cur p : Nat), s.length < k →
    (∀ i, i < s.length → m[cur + i]? = s[i]?) → p ≤ cur ∨ cur + s.length ≤ p →
    p + s.length ≤ m.length →
    Outcome m p s.length (dec k s) (decodeLoop k m cur (cur + s.length) p)
  | 0, _, _, _, _, h, _, _, _ => absurd h (Nat.not_lt_zero _)
  | k + 1, [], m, cur, p, _, _, _, _ => by
    unfold decodeLoop
    rw [if_pos (by simp)]
    exact ⟨Nat.le_refl _, m, rfl, rfl, fun _ _ => rfl, fun _ h => absurd h (Nat.not_lt_zero _)⟩
  | k + 1, c :: s, m, cur, p, hk, hs, hov, hroom => by
    simp only [List.length_cons] at hk hs hov hroom ⊢
    -- the next rounds
    have next : ∀ (n : Nat) (bs t m1 : List UInt8), Wrote m m1 p bs → (c :: s).drop n = t →
        n + t.length = s.length + 1 → 1 ≤ n → bs.length ≤ n →
        Outcome m p (s.length + 1) ((dec k t).map (bs ++ ·))
          (decodeLoop k m1 (cur + n) (cur + (s.length + 1)) (p + bs.length)) := by
      intro n bs t m1 w ht hl hn hb
      have e : cur + (s.length + 1) = cur + n + t.length := by omega
      rw [e]
      have := decodeLoop_spec k t m1 (cur + n) (p + bs.length) (by omega) ?_ (by omega)
        (by rw [w.1]; omega)
      · exact this.step w (by omega)
      · intro i hi
        rw [w.2.1 _ (by omega), ← ht, List.getElem?_drop, ← hs (n + i) (by omega)]
        congr 1
        omega
    unfold decodeLoop dec
    rw [if_neg (show ¬ cur ≥ cur + (s.length + 1) by omega), load_ok (i := cur) (c := c) (hs 0 (by omega)), bind_ok']
    by_cases hc : c ≠ 92
    · rw [if_pos hc, if_pos hc]
      obtain ⟨m1, e1, w⟩ := store_wrote (m := m) (p := p) (by omega) c
      rw [e1, bind_ok']
      exact next 1 [c] s m1 w rfl (by omega) (by omega) (by simp)
    · rw [if_neg hc, if_neg hc]
      match s, hk, hs, hov, hroom, next with
      | [], _, _, _, _, _ =>
        rw [if_pos (by simp)]
        rfl
      | d :: s1, hk, hs, hov, hroom, next =>
        simp only [List.length_cons] at hk hs hov hroom next ⊢
        rw [if_neg (show ¬ cur + 1 ≥ cur + (s1.length + 1 + 1) by omega), load_ok (i := cur + 1) (c := d) (hs 1 (by omega)), bind_ok']
        cases he : escChar d with
        | some x =>
          obtain ⟨m1, e1, w⟩ := store_wrote (m := m) (p := p) (by omega) x
          dsimp only
          rw [e1, bind_ok']
          exact next 2 [x] s1 m1 w rfl (by omega) (by omega) (by simp)
        | none =>
          dsimp only
          by_cases hd : d ≠ 117
          · rw [if_pos hd, if_pos hd]; rfl
          · rw [if_neg hd, if_neg hd]
            match s1, hk, hs, hov, hroom, next with
            | [], _, _, _, _, _ => rw [if_pos (by simp)]; rfl
            | [_], _, _, _, _, _ => rw [if_pos (by simp)]; rfl
            | [_, _], _, _, _, _, _ => rw [if_pos (by simp)]; rfl
            | [_, _, _], _, _, _, _, _ => rw [if_pos (by simp)]; rfl
            | h1 :: h2 :: h3 :: h4 :: s2, hk, hs, hov, hroom, next =>
              simp only [List.length_cons] at hk hs hov hroom next ⊢
              rw [if_neg (show ¬ cur + 1 + 5 > cur + (s2.length + 1 + 1 + 1 + 1 + 1 + 1) by omega), load_ok (c := h1) (hs 2 (by omega)), bind_ok',
                load_ok (c := h2) (hs 3 (by omega)), bind_ok',
                load_ok (c := h3) (hs 4 (by omega)), bind_ok',
                load_ok (c := h4) (hs 5 (by omega)), bind_ok', unicodeHex_eq]
              cases hx : hex4 h1 h2 h3 h4 with
              | none => rfl
              | some n =>
                have hu := utf8_length n
                obtain ⟨m1, e1, w⟩ := storeAll_spec (utf8 n) m p (by omega)
                simp only [Option.map_some, Option.bind_some]
                rw [e1, bind_ok']
                exact next 6 (utf8 n) s2 m1 w rfl (by omega) (by omega) (by omega)

/-! ## Property C16 -/

/-- A literal body denotes at most one byte string. -/
theorem Denotes.unique {s d d' : List UInt8} (h : Denotes s d) (h' : Denotes s d') : d = d' := by
  have := (denotes_dec h (s.length + 1) (by omega)).symm.trans (denotes_dec h' (s.length + 1) (by omega))
  exact Option.some.inj this

theorem ext_parts {m m1 d : List UInt8} {p n : Nat} (hd : d.length ≤ n) (hp : p + n ≤ m.length)
    (hl : m1.length = m.length) (h1 : ∀ i, i < p ∨ p + n ≤ i → m1[i]? = m[i]?)
    (h2 : ∀ i, i < d.length → m1[p + i]? = d[i]?) :
    ∃ x, x.length + d.length = n ∧ m1 = m.take p ++ d ++ x ++ m.drop (p + n) := by
  refine ⟨(m1.drop (p + d.length)).take (n - d.length), ?_, ?_⟩
  · rw [List.length_take, List.length_drop]; omega
  · apply List.ext_getElem?
    intro i
    have lx : ((m1.drop (p + d.length)).take (n - d.length)).length = n - d.length := by
      rw [List.length_take, List.length_drop]; omega
    have lp : (m.take p).length = p := by rw [List.length_take]; omega
    by_cases c1 : i < p
    · rw [h1 i (Or.inl c1), List.append_assoc, List.append_assoc,
        List.getElem?_append_left (by omega), List.getElem?_take_of_lt c1]
    · by_cases c2 : i < p + d.length
      · rw [List.append_assoc, List.append_assoc, List.getElem?_append_right (by omega), lp,
          List.getElem?_append_left (by omega), ← h2 (i - p) (by omega)]
        congr 1
        omega
      · by_cases c3 : i < p + n
        · rw [List.append_assoc, List.append_assoc, List.getElem?_append_right (by omega), lp,
            List.getElem?_append_right (by omega), List.getElem?_append_left (by omega),
            List.getElem?_take_of_lt (by omega), List.getElem?_drop]
          congr 1
          omega
        · rw [List.getElem?_append_right (by simp only [List.length_append]; omega),
            h1 i (by omega), List.getElem?_drop]
          simp only [List.length_append, lx, lp]
          congr 1
          omega

/-- C16: the decoder succeeds exactly on the literal bodies that denote something. The destination then
gets what the body denotes, which is not longer than the body, and nothing but the destination (as
many bytes as the body has) is written. Source and destination may be the same place (decoding in
place); otherwise the destination starts before the source, or behind its end. -/
theorem decode_exact (m : List UInt8) (dst dlen src : Nat) (s : List UInt8)
    (hsrc : ∀ i, i < s.length → m[src + i]? = s[i]?)
    (hov : dst + dlen ≤ src ∨ src + s.length ≤ dst + dlen)
    (hroom : dst + dlen + s.length ≤ m.length) :
    (∃ d x, Denotes s d ∧ x.length + d.length = s.length ∧
      decodeString m dst dlen src s.length =
        .ok (m.take (dst + dlen) ++ d ++ x ++ m.drop (dst + dlen + s.length), dlen + d.length)) ∨
    ((∀ d, ¬ Denotes s d) ∧ decodeString m dst dlen src s.length = .err) := by
  have h := decodeLoop_spec (s.length + 1) s m src (dst + dlen) (by omega) hsrc hov hroom
  unfold decodeString
  cases hd : dec (s.length + 1) s with
  | none =>
    rw [hd] at h
    right
    refine ⟨fun d h' => ?_, ?_⟩
    · rw [denotes_dec h' _ (by omega)] at hd
      cases hd
    · rw [show decodeLoop (s.length + 1) m src (src + s.length) (dst + dlen) = .err from h]
      rfl
  | some d =>
    rw [hd] at h
    obtain ⟨hle, m1, e, hl, h1, h2⟩ := h
    obtain ⟨x, hx, rfl⟩ := ext_parts hle hroom hl h1 h2
    left
    refine ⟨d, x, dec_denotes _ _ _ hd, hx, ?_⟩
    rw [e, bind_ok']
    dsimp only
    congr 2
    omega

/-- C16, decoding in place as done for every value string with escapes. -/
theorem decode_in_place (pre s post : List UInt8) :
    (∃ d x, Denotes s d ∧ x.length + d.length = s.length ∧
      getString (pre ++ s ++ post) pre.length s.length true = .ok (pre ++ d ++ x ++ post, d.length)) ∨
    ((∀ d, ¬ Denotes s d) ∧ getString (pre ++ s ++ post) pre.length s.length true = .err) := by
  have := decode_exact (pre ++ s ++ post) pre.length 0 pre.length s ?_ (Or.inl (Nat.le_refl _)) ?_
  · unfold getString
    rw [if_pos rfl]
    rw [List.append_assoc, Nat.add_zero, List.take_left] at this
    rw [show (pre ++ (s ++ post)).drop (pre.length + s.length) = post by
      rw [← List.drop_drop, List.drop_left, List.drop_left]] at this
    simpa only [Nat.zero_add, List.append_assoc] using this
  · intro i hi
    rw [List.append_assoc, List.getElem?_append_right (by omega), List.getElem?_append_left (by omega)]
    congr 1
    omega
  · simp only [List.length_append]; omega

/-- A body without backslash stands for itself (such strings are not decoded). -/
theorem denotes_plain : ∀ {s : List UInt8}, '\\'.toUInt8 ∉ s → Denotes s s
  | [], _ => .nil
  | c :: s, h => by
    rw [List.mem_cons, not_or] at h
    exact .plain (Ne.symm h.1) (denotes_plain h.2)

/-- The literal body `"a\\"\\u00e9\\u20ac"` denotes `a"é€` in UTF-8, and a bad escape is refused. -/
example : Denotes [97, 92, 34, 92, 117, 48, 48, 101, 57, 92, 117, 50, 48, 65, 99]
    [97, 34, 0xc3, 0xa9, 0xe2, 0x82, 0xac] :=
  .plain (by decide) (.esc (by decide) (.uni (n := 0xe9) (by decide) (.uni (n := 0x20ac) (by decide) .nil)))
example : getString ([1, 2] ++ [97, 92, 34, 92, 117, 48, 48, 101, 57] ++ [3]) 2 9 true =
    .ok ([1, 2] ++ [97, 34, 0xc3, 0xa9] ++ [117, 48, 48, 101, 57] ++ [3], 4) := by decide
example : getString [92, 120] 0 2 true = .err := by decide

/-! ## Property C35: characters -/

theorem ofNat_val {n : Nat} (hv : n.isValidChar) : (Char.ofNat n).val.toNat = n := by
  unfold Char.ofNat
  rw [dif_pos hv]
  rfl

/-- An escape for a character gives its UTF-8 form, as Lean's library defines it. -/
theorem utf8_char (n : Nat) (h : n < 0xd800 ∨ (0xdfff < n ∧ n < 0x10000)) :
    utf8 n = String.utf8EncodeChar (Char.ofNat n) := by
  have hv : n.isValidChar := by unfold Nat.isValidChar; omega
  unfold utf8 String.utf8EncodeChar
  dsimp only
  rw [ofNat_val hv]
  by_cases c1 : n < 128
  · rw [if_pos c1, if_pos (show n ≤ 127 by omega)]
  · rw [if_neg c1, if_neg (show ¬ n ≤ 127 by omega)]
    by_cases c2 : n < 2048
    · rw [if_pos c2, if_pos (show n ≤ 2047 by omega), Nat.mod_eq_of_lt (show n / 64 < 32 by omega), Nat.add_comm,
        Nat.add_comm 128]
    · rw [if_neg c2, if_neg (show ¬ n ≤ 2047 by omega), if_pos (show n ≤ 65535 by omega), Nat.mod_eq_of_lt (show n / 4096 < 16 by omega),
        Nat.add_comm, Nat.add_comm 128, Nat.add_comm 128]

/-- `Chars pairs s cs`: the literal body `s`, a text in UTF-8, stands for the characters `cs` according
to RFC 8259, section 7. A character beyond U+FFFF can be written as two escapes (a surrogate pair);
the flag tells whether such pairs occur. -/
inductive Chars (pairs : Bool) : List UInt8 → List Char → Prop where
  | nil : Chars pairs [] []
  | plain {c s cs} : c ≠ '\\' → Chars pairs s cs → Chars pairs (String.utf8EncodeChar c ++ s) (c :: cs)
  | esc {c x s cs} : (c, x) ∈ escapes → Chars pairs s cs →
      Chars pairs ('\\'.toUInt8 :: c :: s) (Char.ofNat x.toNat :: cs)
  | uni {h1 h2 h3 h4 n s cs} : hex4 h1 h2 h3 h4 = some n → n < 0xd800 ∨ 0xdfff < n → Chars pairs s cs →
      Chars pairs ('\\'.toUInt8 :: 'u'.toUInt8 :: h1 :: h2 :: h3 :: h4 :: s) (Char.ofNat n :: cs)
  | pair {h1 h2 h3 h4 g1 g2 g3 g4 hi lo s cs} : pairs = true → hex4 h1 h2 h3 h4 = some hi →
      hex4 g1 g2 g3 g4 = some lo → 0xd800 ≤ hi → hi < 0xdc00 → 0xdc00 ≤ lo → lo < 0xe000 →
      Chars pairs s cs → Chars pairs ('\\'.toUInt8 :: 'u'.toUInt8 :: h1 :: h2 :: h3 :: h4 ::
        '\\'.toUInt8 :: 'u'.toUInt8 :: g1 :: g2 :: g3 :: g4 :: s)
        (Char.ofNat (0x10000 + (hi - 0xd800) * 0x400 + (lo - 0xdc00)) :: cs)

theorem denotes_append_plain : ∀ {a s d : List UInt8}, '\\'.toUInt8 ∉ a → Denotes s d → Denotes (a ++ s) (a ++ d)
  | [], _, _, _, h => h
  | c :: a, _, _, h, hd => by
    rw [List.mem_cons, not_or] at h
    exact .plain (Ne.symm h.1) (denotes_append_plain h.2 hd)

theorem encode_no_backslash {c : Char} (h : c ≠ '\\') : '\\'.toUInt8 ∉ String.utf8EncodeChar c := by
  have hc : c.val.toNat ≠ 92 := fun e => h (Char.ext (UInt32.toNat_inj.mp e))
  have key : ∀ n, n % 256 ≠ 92 → '\\'.toUInt8 ≠ UInt8.ofNat n := by
    intro n hn e
    have := congrArg UInt8.toNat e
    rw [UInt8.toNat_ofNat'] at this
    exact hn this.symm
  unfold String.utf8EncodeChar
  dsimp only
  generalize hv : c.val.toNat = v at hc
  split
  · simp only [List.mem_cons, List.not_mem_nil, or_false]
    exact key _ (by omega)
  · split
    · simp only [List.mem_cons, List.not_mem_nil, or_false, not_or]
      exact ⟨key _ (by omega), key _ (by omega)⟩
    · split
      · simp only [List.mem_cons, List.not_mem_nil, or_false, not_or]
        exact ⟨key _ (by omega), key _ (by omega), key _ (by omega)⟩
      · simp only [List.mem_cons, List.not_mem_nil, or_false, not_or]
        exact ⟨key _ (by omega), key _ (by omega), key _ (by omega), key _ (by omega)⟩

theorem hex4_lt {a b c d : UInt8} {n : Nat} (h : hex4 a b c d = some n) : n < 0x10000 := by
  unfold hex4 at h
  split at h
  · rename_i a' b' c' d' ha hb hc hd
    have := hexVal_lt _ _ ha
    have := hexVal_lt _ _ hb
    have := hexVal_lt _ _ hc
    have := hexVal_lt _ _ hd
    injection h with h
    omega
  · cases h

/-- C35 for texts without surrogate pairs: decoding gives the UTF-8 form of the characters that the
literal stands for. Full statement: the same for `Chars true`; `surrogate_pair_wrong` shows that it is
false. -/
theorem decode_chars_partial {s : List UInt8} {cs : List Char} (h : Chars false s cs) :
    Denotes s (cs.flatMap String.utf8EncodeChar) := by
  induction h with
  | nil => exact .nil
  | plain hc _ ih => exact denotes_append_plain (encode_no_backslash hc) ih
  | @esc c x s cs hx _ ih =>
    have : ∀ q ∈ escapes, String.utf8EncodeChar (Char.ofNat q.2.toNat) = [q.2] := by decide
    rw [List.flatMap_cons, this _ hx]
    exact .esc hx ih
  | @uni h1 h2 h3 h4 n s cs hn hs _ ih =>
    rw [List.flatMap_cons, ← utf8_char n (by have := hex4_lt hn; omega)]
    exact .uni hn ih
  | pair hp => cases hp

/-- C35 fails for surrogate pairs: the literal of U+1F600 decodes to six bytes that are not its UTF-8
form, and not UTF-8 at all. -/
theorem surrogate_pair_wrong :
    let s : List UInt8 := [92, 117, 100, 56, 51, 100, 92, 117, 100, 101, 48, 48]
    Chars true s [Char.ofNat 0x1f600] ∧ Denotes s [0xed, 0xa0, 0xbd, 0xed, 0xb8, 0x80] ∧
    String.utf8EncodeChar (Char.ofNat 0x1f600) = [0xf0, 0x9f, 0x98, 0x80] ∧
    ∀ c : Char, (String.utf8EncodeChar c).head? = some 0xed → (String.utf8EncodeChar c)[1]? ≠ some 0xa0 := by
  refine ⟨.pair (hi := 0xd83d) (lo := 0xde00) rfl (by decide) (by decide) (by decide) (by decide)
    (by decide) (by decide) .nil, .uni (n := 0xd83d) (by decide) (.uni (n := 0xde00) (by decide) .nil), by decide, ?_⟩
  intro c
  have hv := c.valid
  unfold UInt32.isValidChar Nat.isValidChar at hv
  unfold String.utf8EncodeChar
  dsimp only
  generalize c.val.toNat = v at hv
  have key : ∀ n k : Nat, k < 256 → UInt8.ofNat n = UInt8.ofNat k → n % 256 = k := by
    intro n k hk e
    have := congrArg UInt8.toNat e
    rw [UInt8.toNat_ofNat', UInt8.toNat_ofNat'] at this
    omega
  intro h1 h2
  split at h1
  · rename_i c1
    have := key _ 0xed (by decide) (Option.some.inj h1)
    omega
  · rename_i c1
    split at h1
    · rename_i c2
      have := key _ 0xed (by decide) (Option.some.inj h1)
      omega
    · rename_i c2
      split at h1
      · rename_i c3
        rw [if_neg c1, if_neg c2, if_pos c3] at h2
        have e1 := key _ 0xed (by decide) (Option.some.inj h1)
        have e2 := key _ 0xa0 (by decide) (Option.some.inj h2)
        omega
      · have := key _ 0xed (by decide) (Option.some.inj h1)
        omega

example : Chars false ([0xc3, 0xa9] ++ [92, 110]) ['é', '\n'] :=
  .plain (c := 'é') (by decide) (.esc (x := 10) (by decide) .nil)

end Verif.Json
