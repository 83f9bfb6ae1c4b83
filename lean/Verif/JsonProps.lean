import Verif.JsonDecode

/-!
# Properties C14, C15 and C34: what the JSON parser accepts, and what it returns
-/

namespace Verif.Json

/-! ## Specification: the grammar -/

/-- White space. -/
def Ws (w : List UInt8) : Prop := ∀ c ∈ w, c ∈ [32, 9, 10, 11, 12, 13]

/-- Digits, and the number that a string of digits stands for. -/
def Digits (ds : List UInt8) : Prop := ∀ c ∈ ds, c ∈ [48, 49, 50, 51, 52, 53, 54, 55, 56, 57]
def decimal (ds : List UInt8) : Nat := ds.foldl (fun v c => 10 * v + (c.toNat - 48)) 0

/-- The minus sign. -/
def sign (neg : Bool) : List UInt8 := if neg then [45] else []

/-- `NumLit s n d`: the literal `s` has the value `n / d`, with `d` ten to the number of digits behind
the point. The magnitude of `n` is at most 9223372036854775799 (seven less than the largest int64,
with the last digit rounded down to a 9), and there are at most 19 digits behind the point. -/
inductive NumLit : List UInt8 → Int → Nat → Prop where
  | int {neg ds} : ds ≠ [] → Digits ds → decimal ds ≤ 9223372036854775799 →
      NumLit (sign neg ++ ds) (if neg then - (decimal ds : Int) else decimal ds) 1
  | frac {neg ds fs} : ds ≠ [] → Digits ds → fs ≠ [] → Digits fs → fs.length ≤ 19 →
      decimal (ds ++ fs) ≤ 9223372036854775799 →
      NumLit (sign neg ++ ds ++ [46] ++ fs)
        (if neg then - (decimal (ds ++ fs) : Int) else decimal (ds ++ fs)) (10 ^ fs.length)

/-- What can stand between quotes: no zero byte, quotes only behind a backslash, and a backslash only
with something behind it. -/
inductive Body : List UInt8 → Prop where
  | nil : Body []
  | plain {c s} : c ≠ 0 → c ≠ 34 → c ≠ 92 → Body s → Body (c :: s)
  | esc {d s} : d ≠ 0 → Body s → Body (92 :: d :: s)

/-- Lower case of a key: ASCII letters, but not the one behind a backslash. -/
def lowerKey : List UInt8 → List UInt8
  | [] => []
  | [c] => [if 65 ≤ c.toNat ∧ c.toNat ≤ 90 then UInt8.ofNat (c.toNat + 32) else c]
  | c :: d :: s =>
    if c = 92 then c :: d :: lowerKey s
    else (if 65 ≤ c.toNat ∧ c.toNat ≤ 90 then UInt8.ofNat (c.toNat + 32) else c) :: lowerKey (d :: s)

/-- The bytes of a key that count for its hash: all but those behind a backslash. -/
def hashed : List UInt8 → List UInt8
  | [] => []
  | [c] => [c]
  | c :: d :: s => if c = 92 then c :: hashed s else c :: hashed (d :: s)

/-- The hash of nginx. -/
def hashOf (l : List UInt8) : Nat := l.foldl (fun h c => (h * 31 + c.toNat) % 2 ^ 64) 0

/-- Values without parts. `off` is the offset of the literal in the text. -/
inductive Scalar (off : Nat) : List UInt8 → V → Prop where
  | null : Scalar off [110, 117, 108, 108] .null
  | true : Scalar off [116, 114, 117, 101] (.bool true)
  | false : Scalar off [102, 97, 108, 115, 101] (.bool false)
  | num {s n d} : NumLit s n d → Scalar off s (.num n d)
  | str {b} : Body b → Scalar off (34 :: (b ++ [34])) (.str (off + 1) b.length (b.contains 92))

/-- Items separated by commas, with space around them. `R off s s' v` tells that the text `s` at offset
`off` is an item with the value `v` and becomes `s'`. -/
inductive Items {α : Type} (R : Nat → List UInt8 → List UInt8 → α → Prop) :
    Nat → List UInt8 → List UInt8 → List α → Prop where
  | one {off s s' v w} : R off s s' v → Ws w → Items R off (s ++ w) (s' ++ w) [v]
  | cons {off s s' v w w' t t' vs} : R off s s' v → Ws w → Ws w' →
      Items R (off + s.length + w.length + 1 + w'.length) t t' vs →
      Items R off (s ++ w ++ [44] ++ w' ++ t) (s' ++ w ++ [44] ++ w' ++ t') (v :: vs)

/-- The type of a value, as arrays see it. -/
def typeOf : V → Option Ty
  | .null => none
  | .bool _ => some .bool
  | .num _ d => if d = 1 then some .int else some .frac
  | .str _ _ _ => some .str
  | .arr _ _ => some .arr
  | .obj _ => some .obj

/-- Which values an array with the given type can have: all elements have the type of the array, but
integers can be among fractions. -/
def Fits (ty : Ty) (v : V) : Prop := typeOf v = some ty ∨ (ty = .frac ∧ typeOf v = some .int)

/-- A member of an object: a key, a colon, a value. -/
def IsMember (R : Nat → List UInt8 → List UInt8 → V → Prop) (off : Nat) (s s' : List UInt8) (m : Key × V) :
    Prop :=
  ∃ b w w' t t', Body b ∧ Ws w ∧ Ws w' ∧
    s = 34 :: (b ++ [34] ++ w ++ [58] ++ w' ++ t) ∧ s' = 34 :: (lowerKey b ++ [34] ++ w ++ [58] ++ w' ++ t') ∧
    m.1 = { off := off + 1, len := b.length, hash := hashOf (hashed (lowerKey b)) } ∧
    R (off + 1 + b.length + 1 + w.length + 1 + w'.length) t t' m.2

/-- `Gr n off s s' v`: the text `s` at offset `off` is a value `v` in which at most `n` arrays and objects
that are not empty are nested; `s'` is the text with the keys in lower case. -/
def Gr : Nat → Nat → List UInt8 → List UInt8 → V → Prop
  | n, off, s, s', v =>
    (Scalar off s v ∧ s' = s) ∨
    (∃ w, Ws w ∧ s = 91 :: (w ++ [93]) ∧ s' = s ∧ v = .arr none []) ∨
    (∃ w, Ws w ∧ s = 123 :: (w ++ [125]) ∧ s' = s ∧ v = .obj []) ∨
    match n with
    | 0 => False
    | n + 1 =>
      (∃ w t t' v0 vs ty, Ws w ∧ typeOf v0 = some ty ∧ (v0 :: vs).length ≤ 524288 ∧
        Items (fun o a a' v => Gr n o a a' v ∧ Fits ty v) (off + 1 + w.length) t t' (v0 :: vs) ∧
        s = 91 :: (w ++ t ++ [93]) ∧ s' = 91 :: (w ++ t' ++ [93]) ∧ v = .arr (some ty) (v0 :: vs)) ∨
      (∃ w t t' ms, Ws w ∧ ms.length ≤ 524288 ∧
        Items (IsMember (Gr n)) (off + 1 + w.length) t t' ms ∧
        s = 123 :: (w ++ t ++ [125]) ∧ s' = 123 :: (w ++ t' ++ [125]) ∧ v = .obj ms)

/-! ## Lemmas: characters -/

theorem isSpace_iff : ∀ c, isSpace c = true ↔ c ∈ ([32, 9, 10, 11, 12, 13] : List UInt8) :=
  forall_byte (by decide +kernel)

theorem isDigit_iff : ∀ c, isDigit c = true ↔ c ∈ ([48, 49, 50, 51, 52, 53, 54, 55, 56, 57] : List UInt8) :=
  forall_byte (by decide +kernel)

theorem space_facts : ∀ c, isSpace c = true → c ≠ 0 ∧ isDigit c = false ∧ c ≠ 46 ∧ c ≠ 44 :=
  forall_byte (by decide +kernel)

theorem digit_facts : ∀ c, isDigit c = true → c ≠ 0 ∧ isSpace c = false ∧ c ≠ 46 ∧ c ≠ 45 ∧ c ≠ 34 ∧ c ≠ 91 ∧
    c ≠ 123 ∧ c ≠ 110 ∧ c ≠ 116 ∧ c ≠ 102 ∧ c ≠ 93 ∧ c ≠ 125 ∧ 48 ≤ c.toNat ∧ c.toNat ≤ 57 :=
  forall_byte (by decide +kernel)

theorem lower_eq : ∀ c, lower c = if 65 ≤ c.toNat ∧ c.toNat ≤ 90 then UInt8.ofNat (c.toNat + 32) else c :=
  forall_byte (by decide +kernel)

theorem lower_facts : ∀ c, (lower c = 0 ↔ c = 0) ∧ (lower c = 92 ↔ c = 92) ∧ (lower c = 34 ↔ c = 34) :=
  forall_byte (by decide +kernel)

theorem Ws.nil : Ws [] := fun _ h => nomatch h

theorem Ws.cons {c : UInt8} {w : List UInt8} (h : isSpace c = true) (hw : Ws w) : Ws (c :: w) := by
  intro x hx
  rcases List.mem_cons.mp hx with rfl | hx
  · exact (isSpace_iff _).mp h
  · exact hw x hx

theorem Ws.zero {w : List UInt8} (h : Ws w) : 0 ∉ w := fun h0 => by
  have := h 0 h0
  revert this
  decide

/-! ## Lemmas: space -/

theorem skipSpaces_sound : ∀ {rest done : List UInt8} {st : St}, skipSpaces done rest = .ok st →
    ∃ w, Ws w ∧ rest = w ++ st.rest ∧ st.done = done ++ w ∧ ∃ c cs, st.rest = c :: cs ∧ isSpace c = false
  | [], _, _, h => nomatch h
  | c :: cs, done, st, h => by
    unfold skipSpaces at h
    by_cases hc : c ≠ 0 ∧ isSpace c = true
    · rw [if_pos hc] at h
      obtain ⟨w, hw, e1, e2, e3⟩ := skipSpaces_sound h
      exact ⟨c :: w, hw.cons hc.2, by rw [e1]; rfl, by rw [e2, List.append_assoc]; rfl, e3⟩
    · rw [if_neg hc] at h
      cases h
      refine ⟨[], .nil, rfl, (List.append_nil _).symm, c, cs, rfl, ?_⟩
      cases hs : isSpace c with
      | false => rfl
      | true => exact absurd ⟨(space_facts c hs).1, hs⟩ hc

theorem skipSpaces_complete : ∀ {w : List UInt8} (done : List UInt8) {c : UInt8} {cs : List UInt8}, Ws w →
    isSpace c = false → skipSpaces done (w ++ c :: cs) = .ok { done := done ++ w, rest := c :: cs }
  | [], done, c, cs, _, hc => by
    rw [List.nil_append, List.append_nil]
    unfold skipSpaces
    rw [if_neg (by rw [hc]; exact fun h => nomatch h.2)]
  | d :: w, done, c, cs, hw, hc => by
    rw [List.cons_append]
    unfold skipSpaces
    have hd : isSpace d = true := (isSpace_iff d).mpr (hw d (List.mem_cons_self ..))
    rw [if_pos ⟨(space_facts d hd).1, hd⟩,
      skipSpaces_complete _ (fun x hx => hw x (List.mem_cons_of_mem _ hx)) hc, List.append_assoc]
    rfl

theorem skipSpaces_safe : ∀ {rest : List UInt8} (done : List UInt8), 0 ∈ rest → ∃ st, skipSpaces done rest = .ok st
  | [], _, h => nomatch h
  | c :: cs, done, h => by
    unfold skipSpaces
    by_cases hc : c ≠ 0 ∧ isSpace c = true
    · rw [if_pos hc]
      rcases List.mem_cons.mp h with h | h
      · exact absurd h.symm hc.1
      · exact skipSpaces_safe _ h
    · rw [if_neg hc]
      exact ⟨_, rfl⟩

/-! ## Lemmas: strings and keys -/

theorem strLoop_sound : ∀ (k : Nat) {rest : List UInt8}, rest.length < k → ∀ {done : List UInt8} {len0 : Nat} {esc0 : Bool}
    {len : Nat} {esc : Bool} {st : St}, strLoop done len0 esc0 rest = .ok (len, esc, st) →
    ∃ b, Body b ∧ rest = b ++ 34 :: st.rest ∧ st.done = done ++ b ++ [34] ∧ len = len0 + b.length ∧
      esc = (esc0 || b.contains 92)
  | 0, _, hk => absurd hk (Nat.not_lt_zero _)
  | k + 1, [], _ => fun h => nomatch h
  | k + 1, c :: cs, hk => by
    rename_i done len0 esc0 len esc st
    intro h
    rw [List.length_cons] at hk
    unfold strLoop at h
    by_cases h0 : c = 0
    · rw [if_pos h0] at h; cases h
    · rw [if_neg h0] at h
      by_cases h92 : c = 92
      · rw [if_pos h92] at h
        match cs, hk, h with
        | d :: ds, hk, h =>
          rw [List.length_cons] at hk
          dsimp only at h
          by_cases hd : d = 0
          · rw [if_pos hd] at h; cases h
          · rw [if_neg hd] at h
            obtain ⟨b, hb, e1, e2, e3, e4⟩ := strLoop_sound k (by omega) h
            subst h92
            refine ⟨92 :: d :: b, .esc hd hb, by rw [e1]; rfl, by rw [e2]; simp, by rw [e3]; simp; omega, ?_⟩
            rw [e4]
            simp
      · rw [if_neg h92] at h
        by_cases h34 : c = 34
        · rw [if_pos h34] at h
          cases h
          exact ⟨[], .nil, by rw [h34]; rfl, by rw [h34]; simp, rfl, by simp⟩
        · rw [if_neg h34] at h
          obtain ⟨b, hb, e1, e2, e3, e4⟩ := strLoop_sound k (by omega) h
          refine ⟨c :: b, .plain h0 h34 h92 hb, by rw [e1]; rfl, by rw [e2]; simp, by rw [e3]; simp; omega, ?_⟩
          rw [e4]
          have : (92 == c) = false := by simpa using Ne.symm h92
          rw [List.contains_cons, this, Bool.false_or]

theorem strLoop_complete {b : List UInt8} (hb : Body b) : ∀ (done : List UInt8) (len0 : Nat) (esc0 : Bool)
    (post : List UInt8), strLoop done len0 esc0 (b ++ 34 :: post) =
      .ok (len0 + b.length, esc0 || b.contains 92, { done := done ++ b ++ [34], rest := post }) := by
  induction hb with
  | nil =>
    intro done len0 esc0 post
    rw [List.nil_append]
    unfold strLoop
    rw [if_neg (by decide), if_neg (by decide), if_pos rfl]
    simp
  | @plain c s h0 h34 h92 _ ih =>
    intro done len0 esc0 post
    rw [List.cons_append]
    unfold strLoop
    rw [if_neg h0, if_neg h92, if_neg h34, ih]
    have : (92 == c) = false := by simpa using Ne.symm h92
    simp only [List.length_cons, List.append_assoc, List.contains_cons, this, Bool.false_or]
    rw [show len0 + 1 + s.length = len0 + (s.length + 1) by omega]
    rfl
  | @esc d s hd _ ih =>
    intro done len0 esc0 post
    rw [List.cons_append, List.cons_append]
    unfold strLoop
    rw [if_neg (by decide), if_pos rfl]
    dsimp only
    rw [if_neg hd, ih]
    simp only [List.length_cons, List.append_assoc, List.contains_cons]
    rw [show len0 + 2 + s.length = len0 + (s.length + 1 + 1) by omega]
    simp

theorem strLoop_safe : ∀ (k : Nat) {rest : List UInt8}, rest.length < k → 0 ∈ rest → ∀ (done : List UInt8)
    (len : Nat) (esc : Bool), strLoop done len esc rest ≠ .ub
  | 0, _, hk => absurd hk (Nat.not_lt_zero _)
  | k + 1, [], _ => fun h => nomatch h
  | k + 1, c :: cs, hk => by
    intro hz done len esc
    rw [List.length_cons] at hk
    unfold strLoop
    by_cases h0 : c = 0
    · rw [if_pos h0]; exact fun h => nomatch h
    · rw [if_neg h0]
      have hz' : 0 ∈ cs := by
        rcases List.mem_cons.mp hz with h | h
        · exact absurd h.symm h0
        · exact h
      by_cases h92 : c = 92
      · rw [if_pos h92]
        match cs, hk, hz' with
        | d :: ds, hk, hz' =>
          rw [List.length_cons] at hk
          dsimp only
          by_cases hd : d = 0
          · rw [if_pos hd]; exact fun h => nomatch h
          · rw [if_neg hd]
            rcases List.mem_cons.mp hz' with h | h
            · exact absurd h.symm hd
            · exact strLoop_safe k (by omega) h _ _ _
      · rw [if_neg h92]
        by_cases h34 : c = 34
        · rw [if_pos h34]; exact fun h => nomatch h
        · rw [if_neg h34]
          exact strLoop_safe k (by omega) hz' _ _ _

theorem Body.zero {b : List UInt8} (h : Body b) : 0 ∉ b := by
  induction h with
  | nil => exact fun h => nomatch h
  | plain h0 _ _ _ ih => exact fun h => (List.mem_cons.mp h).elim (fun h => h0 h.symm) ih
  | esc hd _ ih =>
    intro h
    rcases List.mem_cons.mp h with h | h
    · revert h; decide
    · exact (List.mem_cons.mp h).elim (fun h => hd h.symm) ih

theorem lowerKey_plain {c : UInt8} {s : List UInt8} (h : c ≠ 92) : lowerKey (c :: s) = lower c :: lowerKey s := by
  rw [lower_eq]
  cases s with
  | nil => rfl
  | cons d s =>
    rw [lowerKey, if_neg h]

theorem lowerKey_esc {d : UInt8} {s : List UInt8} : lowerKey (92 :: d :: s) = 92 :: d :: lowerKey s := by
  rw [lowerKey, if_pos rfl]

theorem hashed_plain {c : UInt8} {s : List UInt8} (h : c ≠ 92) : hashed (c :: s) = c :: hashed s := by
  cases s with
  | nil => rfl
  | cons d s =>
    rw [hashed, if_neg h]

theorem hashed_esc {d : UInt8} {s : List UInt8} : hashed (92 :: d :: s) = 92 :: hashed s := by
  rw [hashed, if_pos rfl]

theorem lowerKey_length {b : List UInt8} (h : Body b) : (lowerKey b).length = b.length := by
  induction h with
  | nil => rfl
  | plain _ _ h92 _ ih => rw [lowerKey_plain h92, List.length_cons, ih, List.length_cons]
  | esc _ _ ih => rw [lowerKey_esc]; simp only [List.length_cons, ih]

/-- Hash of a key from a given start. -/
def hashFrom (h : Nat) (l : List UInt8) : Nat := l.foldl hashStep h

theorem hashOf_eq (l : List UInt8) : hashOf l = hashFrom 0 l := rfl

theorem keyLoop_sound : ∀ (k : Nat) {rest : List UInt8}, rest.length < k → ∀ {done : List UInt8} {len0 h0 : Nat}
    {len h : Nat} {st : St}, keyLoop done len0 h0 rest = .ok (len, h, st) →
    ∃ b, Body b ∧ rest = b ++ 34 :: st.rest ∧ st.done = done ++ lowerKey b ++ [34] ∧ len = len0 + b.length ∧
      h = hashFrom h0 (hashed (lowerKey b))
  | 0, _, hk => absurd hk (Nat.not_lt_zero _)
  | k + 1, [], _ => fun h => nomatch h
  | k + 1, c :: cs, hk => by
    rename_i done len0 h0 len hash st
    intro h
    rw [List.length_cons] at hk
    unfold keyLoop at h
    obtain ⟨l0, l92, l34⟩ := lower_facts c
    by_cases hc0 : c = 0
    · rw [if_pos hc0] at h; cases h
    · rw [if_neg hc0] at h
      by_cases h92 : c = 92
      · rw [if_pos (l92.mpr h92)] at h
        match cs, hk, h with
        | d :: ds, hk, h =>
          rw [List.length_cons] at hk
          dsimp only at h
          by_cases hd : d = 0
          · rw [if_pos hd] at h; cases h
          · rw [if_neg hd] at h
            obtain ⟨b, hb, e1, e2, e3, e4⟩ := keyLoop_sound k (by omega) h
            subst h92
            refine ⟨92 :: d :: b, .esc hd hb, by rw [e1]; rfl, ?_, by rw [e3]; simp; omega, ?_⟩
            · rw [e2, lowerKey_esc, l92.mpr rfl]
              simp
            · rw [e4, lowerKey_esc, hashed_esc, l92.mpr rfl]
              rfl
      · rw [if_neg (fun h => h92 (l92.mp h))] at h
        by_cases h34 : c = 34
        · rw [if_pos (l34.mpr h34)] at h
          cases h
          exact ⟨[], .nil, by rw [h34]; rfl, by rw [l34.mpr h34]; simp [lowerKey], rfl, rfl⟩
        · rw [if_neg (fun h => h34 (l34.mp h))] at h
          obtain ⟨b, hb, e1, e2, e3, e4⟩ := keyLoop_sound k (by omega) h
          refine ⟨c :: b, .plain hc0 h34 h92 hb, by rw [e1]; rfl, ?_, by rw [e3]; simp; omega, ?_⟩
          · rw [e2, lowerKey_plain h92]
            simp
          · rw [e4, lowerKey_plain h92, hashed_plain (fun h => h92 (l92.mp h))]
            rfl

theorem keyLoop_complete {b : List UInt8} (hb : Body b) : ∀ (done : List UInt8) (len0 h0 : Nat)
    (post : List UInt8), keyLoop done len0 h0 (b ++ 34 :: post) =
      .ok (len0 + b.length, hashFrom h0 (hashed (lowerKey b)), { done := done ++ lowerKey b ++ [34], rest := post }) := by
  induction hb with
  | nil =>
    intro done len0 h0 post
    rw [List.nil_append]
    unfold keyLoop
    rw [if_neg (by decide), if_neg (by decide), if_pos (by decide)]
    simp only [lowerKey, hashed, hashFrom, List.foldl_nil, List.append_nil, List.length_nil, Nat.add_zero]
    rfl
  | @plain c s h0 h34 h92 _ ih =>
    intro done len0 hh post
    obtain ⟨l0, l92, l34⟩ := lower_facts c
    rw [List.cons_append]
    unfold keyLoop
    rw [if_neg h0, if_neg (fun h => h92 (l92.mp h)), if_neg (fun h => h34 (l34.mp h)), ih,
      lowerKey_plain h92, hashed_plain (fun h => h92 (l92.mp h))]
    simp only [List.length_cons, List.append_assoc]
    rw [show len0 + 1 + s.length = len0 + (s.length + 1) by omega]
    rfl
  | @esc d s hd _ ih =>
    intro done len0 hh post
    rw [List.cons_append, List.cons_append]
    unfold keyLoop
    rw [if_neg (by decide), if_pos (by decide)]
    dsimp only
    rw [if_neg hd, ih, lowerKey_esc, hashed_esc]
    simp only [List.length_cons, List.append_assoc]
    rw [show len0 + 2 + s.length = len0 + (s.length + 1 + 1) by omega]
    rfl

theorem keyLoop_safe : ∀ (k : Nat) {rest : List UInt8}, rest.length < k → 0 ∈ rest → ∀ (done : List UInt8)
    (len h : Nat), keyLoop done len h rest ≠ .ub
  | 0, _, hk => absurd hk (Nat.not_lt_zero _)
  | k + 1, [], _ => fun h => nomatch h
  | k + 1, c :: cs, hk => by
    intro hz done len hh
    rw [List.length_cons] at hk
    unfold keyLoop
    dsimp only
    by_cases h0 : c = 0
    · rw [if_pos h0]; exact fun h => nomatch h
    · rw [if_neg h0]
      have hz' : 0 ∈ cs := by
        rcases List.mem_cons.mp hz with h | h
        · exact absurd h.symm h0
        · exact h
      by_cases h92 : lower c = 92
      · rw [if_pos h92]
        match cs, hk, hz' with
        | d :: ds, hk, hz' =>
          rw [List.length_cons] at hk
          dsimp only
          by_cases hd : d = 0
          · rw [if_pos hd]; exact fun h => nomatch h
          · rw [if_neg hd]
            rcases List.mem_cons.mp hz' with h | h
            · exact absurd h.symm hd
            · exact keyLoop_safe k (by omega) h _ _ _
      · rw [if_neg h92]
        by_cases h34 : lower c = 34
        · rw [if_pos h34]; exact fun h => nomatch h
        · rw [if_neg h34]
          exact keyLoop_safe k (by omega) hz' _ _ _

/-! ## Lemmas: numbers -/

/-- Number read so far `v`, then the digits. -/
def decFrom (v : Nat) (ds : List UInt8) : Nat := ds.foldl (fun v c => 10 * v + (c.toNat - 48)) v

theorem decFrom_cons (v : Nat) (c : UInt8) (ds : List UInt8) :
    decFrom v (c :: ds) = decFrom (v * 10 + (c.toNat - 48)) ds := by
  unfold decFrom
  rw [List.foldl_cons, Nat.mul_comm]

theorem decFrom_ge : ∀ (ds : List UInt8) (v : Nat), v ≤ decFrom v ds
  | [], v => Nat.le_refl _
  | c :: ds, v => by
    rw [decFrom_cons]
    have := decFrom_ge ds (v * 10 + (c.toNat - 48))
    omega

theorem decFrom_append (v : Nat) (ds fs : List UInt8) : decFrom v (ds ++ fs) = decFrom (decFrom v ds) fs := by
  unfold decFrom
  rw [List.foldl_append]

theorem Digits.nil : Digits [] := fun _ h => nomatch h

theorem Digits.cons {c : UInt8} {ds : List UInt8} (h : isDigit c = true) (hd : Digits ds) : Digits (c :: ds) := by
  intro x hx
  rcases List.mem_cons.mp hx with rfl | hx
  · exact (isDigit_iff _).mp h
  · exact hd x hx

theorem Digits.head {c : UInt8} {ds : List UInt8} (h : Digits (c :: ds)) : isDigit c = true :=
  (isDigit_iff _).mpr (h c (List.mem_cons_self ..))

theorem Digits.tail {c : UInt8} {ds : List UInt8} (h : Digits (c :: ds)) : Digits ds :=
  fun x hx => h x (List.mem_cons_of_mem _ hx)

theorem Digits.zero {ds : List UInt8} (h : Digits ds) : 0 ∉ ds := fun h0 => by
  have := h 0 h0
  revert this
  decide

theorem lim_eq : lim = 922337203685477579 := by decide
theorem llongMax_eq : llongMax = 9223372036854775807 := rfl
theorem ulimit_eq : ulimit = 1844674407370955161 := by decide

theorem intLoop_sound : ∀ {rest done : List UInt8} {v v' : Nat} {st : St}, intLoop done v rest = .ok (v', st) →
    ∃ ds, Digits ds ∧ rest = ds ++ st.rest ∧ st.done = done ++ ds ∧ v' = decFrom v ds ∧
      (ds = [] ∨ v' ≤ 9223372036854775799) ∧ ∃ c cs, st.rest = c :: cs ∧ isDigit c = false
  | [], _, _, _, _, h => nomatch h
  | c :: cs, done, v, v', st, h => by
    unfold intLoop at h
    by_cases hc : isDigit c = true
    · rw [if_pos hc] at h
      by_cases hv : v > lim
      · rw [if_pos hv] at h; cases h
      · rw [if_neg hv] at h
        split at h
        · cases h
        · obtain ⟨ds, hd, e1, e2, e3, e4, e5⟩ := intLoop_sound h
          refine ⟨c :: ds, hd.cons hc, by rw [e1]; rfl, by rw [e2]; simp, by rw [e3, decFrom_cons], Or.inr ?_, e5⟩
          rcases e4 with rfl | e4
          · rw [e3]
            have := (digit_facts c hc).2.2.2.2.2.2.2.2.2.2.2.2
            rw [lim_eq] at hv
            show v * 10 + (c.toNat - 48) ≤ _
            omega
          · exact e4
    · rw [if_neg hc] at h
      cases h
      exact ⟨[], .nil, rfl, (List.append_nil _).symm, rfl, Or.inl rfl, c, cs, rfl, by simpa using hc⟩

theorem intLoop_complete : ∀ {ds : List UInt8} (done : List UInt8) (v : Nat) {c : UInt8} {cs : List UInt8},
    Digits ds → decFrom v ds ≤ 9223372036854775799 → isDigit c = false →
    intLoop done v (ds ++ c :: cs) = .ok (decFrom v ds, { done := done ++ ds, rest := c :: cs })
  | [], done, v, c, cs, _, _, hc => by
    rw [List.nil_append, List.append_nil]
    unfold intLoop
    rw [if_neg (by rw [hc]; decide)]
    rfl
  | d :: ds, done, v, c, cs, hd, hm, hc => by
    rw [decFrom_cons] at hm ⊢
    have := decFrom_ge ds (v * 10 + (d.toNat - 48))
    have hl := lim_eq
    have hl' := llongMax_eq
    rw [List.cons_append]
    unfold intLoop
    rw [if_pos hd.head, if_neg (show ¬ v > lim by omega),
      if_neg (show ¬ v * 10 + (d.toNat - 48) > llongMax by omega), intLoop_complete _ _ hd.tail hm hc]
    simp

theorem intLoop_safe : ∀ {rest : List UInt8} (done : List UInt8) (v : Nat), 0 ∈ rest → intLoop done v rest ≠ .ub
  | [], _, _, h => nomatch h
  | c :: cs, done, v, h => by
    unfold intLoop
    by_cases hc : isDigit c = true
    · rw [if_pos hc]
      by_cases hv : v > lim
      · rw [if_pos hv]; exact fun h => nomatch h
      · have hf := digit_facts c hc
        have := hf.2.2.2.2.2.2.2.2.2.2.2.2
        have hl := lim_eq
        have hl' := llongMax_eq
        rw [if_neg hv, if_neg (show ¬ v * 10 + (c.toNat - 48) > llongMax by omega)]
        rcases List.mem_cons.mp h with h | h
        · exact absurd h.symm hf.1
        · exact intLoop_safe _ _ h
    · rw [if_neg hc]; exact fun h => nomatch h

theorem fracLoop_sound : ∀ {rest done : List UInt8} {v q v' q' : Nat} {st : St},
    fracLoop done v q rest = .ok (v', q', st) →
    ∃ ds, Digits ds ∧ rest = ds ++ st.rest ∧ st.done = done ++ ds ∧ v' = decFrom v ds ∧ q' = q * 10 ^ ds.length ∧
      (ds = [] ∨ (v' ≤ 9223372036854775799 ∧ q' < 2 ^ 64)) ∧ ∃ c cs, st.rest = c :: cs ∧ isDigit c = false
  | [], _, _, _, _, _, _, h => nomatch h
  | c :: cs, done, v, q, v', q', st, h => by
    unfold fracLoop at h
    by_cases hc : isDigit c = true
    · rw [if_pos hc] at h
      by_cases hv : v > lim ∨ q > ulimit
      · rw [if_pos hv] at h; cases h
      · rw [if_neg hv] at h
        have hl := lim_eq
        have hl' := ulimit_eq
        split at h
        · cases h
        · obtain ⟨ds, hd, e1, e2, e3, e4, e5, e6⟩ := fracLoop_sound h
          have hq : q * 10 % 2 ^ 64 = q * 10 := Nat.mod_eq_of_lt (by omega)
          rw [hq] at e4
          refine ⟨c :: ds, hd.cons hc, by rw [e1]; rfl, by rw [e2]; simp, by rw [e3, decFrom_cons], ?_, Or.inr ?_, e6⟩
          · rw [e4, List.length_cons, Nat.pow_succ, Nat.mul_assoc, Nat.mul_comm 10]
          · rcases e5 with rfl | e5
            · rw [e3, e4]
              have := (digit_facts c hc).2.2.2.2.2.2.2.2.2.2.2.2
              refine ⟨?_, ?_⟩
              · show v * 10 + (c.toNat - 48) ≤ _
                omega
              · show q * 10 * 1 < _
                omega
            · exact e5
    · rw [if_neg hc] at h
      cases h
      exact ⟨[], .nil, rfl, (List.append_nil _).symm, rfl, (Nat.mul_one _).symm, Or.inl rfl, c, cs, rfl, by simpa using hc⟩

theorem fracLoop_complete : ∀ {ds : List UInt8} (done : List UInt8) (v q : Nat) {c : UInt8} {cs : List UInt8},
    Digits ds → decFrom v ds ≤ 9223372036854775799 → (ds = [] ∨ q * 10 ^ ds.length < 2 ^ 64) → isDigit c = false →
    fracLoop done v q (ds ++ c :: cs) =
      .ok (decFrom v ds, q * 10 ^ ds.length, { done := done ++ ds, rest := c :: cs })
  | [], done, v, q, c, cs, _, _, _, hc => by
    rw [List.nil_append, List.append_nil]
    unfold fracLoop
    rw [if_neg (by rw [hc]; decide)]
    simp only [List.length_nil, Nat.pow_zero, Nat.mul_one]
    rfl
  | d :: ds, done, v, q, c, cs, hd, hm, hq, hc => by
    rw [decFrom_cons] at hm ⊢
    have := decFrom_ge ds (v * 10 + (d.toNat - 48))
    have hl := lim_eq
    have hl' := llongMax_eq
    have hu := ulimit_eq
    have hq : q * 10 ^ (ds.length + 1) < 2 ^ 64 := hq.resolve_left (fun h => nomatch h)
    have e : q * 10 ^ (ds.length + 1) = q * 10 * 10 ^ ds.length := by
      rw [Nat.pow_succ, Nat.mul_assoc, Nat.mul_comm 10]
    rw [e] at hq
    have hpos : 0 < 10 ^ ds.length := Nat.pow_pos (by decide)
    have hle : q * 10 ≤ q * 10 * 10 ^ ds.length := Nat.le_mul_of_pos_right _ hpos
    have hq10 : q * 10 < 2 ^ 64 := by omega
    rw [List.cons_append]
    unfold fracLoop
    rw [if_pos hd.head, if_neg (show ¬ (v > lim ∨ q > ulimit) by omega),
      if_neg (show ¬ v * 10 + (d.toNat - 48) > llongMax by omega), Nat.mod_eq_of_lt hq10,
      fracLoop_complete _ _ _ hd.tail hm (Or.inr hq) hc, List.length_cons, e]
    simp

theorem fracLoop_safe : ∀ {rest : List UInt8} (done : List UInt8) (v q : Nat), 0 ∈ rest → fracLoop done v q rest ≠ .ub
  | [], _, _, _, h => nomatch h
  | c :: cs, done, v, q, h => by
    unfold fracLoop
    by_cases hc : isDigit c = true
    · rw [if_pos hc]
      by_cases hv : v > lim ∨ q > ulimit
      · rw [if_pos hv]; exact fun h => nomatch h
      · have hf := digit_facts c hc
        have := hf.2.2.2.2.2.2.2.2.2.2.2.2
        have hl := lim_eq
        have hl' := llongMax_eq
        rw [if_neg hv, if_neg (show ¬ v * 10 + (c.toNat - 48) > llongMax by omega)]
        rcases List.mem_cons.mp h with h | h
        · exact absurd h.symm hf.1
        · exact fracLoop_safe _ _ _ h
    · rw [if_neg hc]; exact fun h => nomatch h

end Verif.Json
