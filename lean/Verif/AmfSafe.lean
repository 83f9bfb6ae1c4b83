import Verif.AmfFlat

/-!
# AMF0: the reader is safe on arbitrary bytes
-/

namespace Verif.Amf

/-- The bytes that a value of the type needs at its destination. -/
def room (type len : Nat) : Nat :=
  if type = tNumber then 8 else if type = tBoolean then 1 else if type = tString then len
  else if type = tInt8 then 1 else if type = tInt16 then 2 else if type = tInt32 then 4 else 0

/-- What the caller has to take care of: destinations are large enough, a string has room for its end, and the types that do not exist on the
wire come without a type byte. -/
inductive Fit (m : Mem) : Elt → Prop where
  | mk (base : Nat) (typeless opt : Bool) (name : Bytes) (mem : Option Nat) (sub : List Elt) (len : Nat) :
      (∀ a, mem = some a → room base len ≤ (m a).length ∧ (base = tString → 0 < len)) → (256 ≤ base → typeless = true) →
      (∀ e ∈ sub, Fit m e) → Fit m (.mk base typeless opt name mem sub len)

theorem Fit.inv {m : Mem} {e : Elt} (h : Fit m e) : (∀ a, e.mem = some a → room e.base e.len ≤ (m a).length ∧ (e.base = tString → 0 < e.len)) ∧
    (256 ≤ e.base → e.typeless = true) ∧ ∀ x ∈ e.sub, Fit m x := by
  cases h with
  | mk base tl opt name mem sub len q1 q2 q3 => exact ⟨q1, q2, q3⟩

/-- The objects have their sizes. -/
def Sized (m m' : Mem) : Prop := ∀ a, (m' a).length = (m a).length

theorem Sized.refl (m : Mem) : Sized m m := fun _ => rfl

theorem Sized.trans {m1 m2 m3 : Mem} (h1 : Sized m1 m2) (h2 : Sized m2 m3) : Sized m1 m3 := fun a => (h2 a).trans (h1 a)

theorem Fit.sized {m m' : Mem} (h : Sized m m') {e : Elt} (he : Fit m e) : Fit m' e := by
  induction he with
  | mk base typeless opt name mem sub len h1 h2 _ ih =>
    refine .mk _ _ _ _ _ _ _ (fun a ha => ?_) h2 ih
    rw [h a]
    exact h1 a ha

theorem wr_some {m : Mem} {a off : Nat} {bs : Bytes} (h : off + bs.length ≤ (m a).length) : ∃ m', wr m a off bs = some m' ∧ Sized m m' := by
  unfold wr
  rw [if_pos h]
  refine ⟨_, rfl, fun i => ?_⟩
  show (if i = a then (m a).take off ++ bs ++ (m a).drop (off + bs.length) else m i).length = _
  split
  · rename_i hi
    subst hi
    simp only [List.length_append, List.length_take, List.length_drop]
    omega
  · rfl

theorem wrp_some {m : Mem} {p : Option Nat} {bs : Bytes} (h : ∀ a, p = some a → bs.length ≤ (m a).length) :
    ∃ m', wrp m p 0 bs = some m' ∧ Sized m m' := by
  cases p with
  | none => exact ⟨m, rfl, .refl m⟩
  | some a => exact wr_some (by have := h a rfl; omega)

/-- A result that is no failure of the program: at most `n` bytes are left, the objects have the sizes of `m`, and too deep only if `d` is small. -/
def Good (m : Mem) (n d : Nat) : Out Bytes → Prop
  | .ok s m' => s.length ≤ n ∧ Sized m m'
  | .stop s m' => s.length ≤ n ∧ Sized m m'
  | .err m' => Sized m m'
  | .ub => False
  | .deep => d ≤ n

theorem Good.mono {m m' : Mem} {n n' d d' : Nat} {o : Out Bytes} (h : Good m' n' d' o) (hm : Sized m m') (hn : n' ≤ n) (hd : d' ≤ n' → d ≤ n) :
    Good m n d o := by
  cases o with
  | ok s m1 => exact ⟨Nat.le_trans h.1 hn, hm.trans h.2⟩
  | stop s m1 => exact ⟨Nat.le_trans h.1 hn, hm.trans h.2⟩
  | err m1 => exact Sized.trans hm h
  | ub => exact h
  | deep => exact hd h

theorem flat_get (s : Bytes) (n : Nat) : (n ≤ s.length ∧ flat.get s n = (s.take n, some (s.drop n))) ∨ (s.length < n ∧ flat.get s n = (s, none)) := by
  by_cases h : n ≤ s.length
  · exact .inl ⟨h, by simp [flat, h]⟩
  · exact .inr ⟨by omega, by simp [flat, h]⟩

theorem fetch_good {m : Mem} {p : Option Nat} {k : Nat} {d : Nat} (s : Bytes) (hp : ∀ a, p = some a → k ≤ (m a).length)
    {f : Bytes → Mem → Out Bytes} (hf : ∀ s' m', s'.length + k = s.length → Sized m m' → Good m s.length d (f s' m')) :
    Good m s.length d (fetch flat s m p k f) := by
  unfold fetch
  rcases flat_get s k with ⟨h, e⟩ | ⟨h, e⟩
  · rw [e]
    simp only []
    obtain ⟨m', h1, h2⟩ := wrp_some (m := m) (p := p) (bs := s.take k) (fun a ha => by rw [List.length_take]; have := hp a ha; omega)
    rw [h1]
    exact hf _ _ (by rw [List.length_drop]; omega) h2
  · rw [e]
    simp only []
    obtain ⟨m', h1, h2⟩ := wrp_some (m := m) (p := p) (bs := s) (fun a ha => by have := hp a ha; omega)
    rw [h1]
    exact h2

theorem fetchRev_good {m : Mem} {p : Option Nat} {k : Nat} {d : Nat} (s : Bytes) (hp : ∀ a, p = some a → k ≤ (m a).length) :
    Good m s.length d (fetchRev flat s m p k) := by
  unfold fetchRev
  rcases flat_get s k with ⟨h, e⟩ | ⟨h, e⟩
  · rw [e]
    simp only []
    obtain ⟨m', h1, h2⟩ := wrp_some (m := m) (p := p) (bs := (s.take k).reverse) (fun a ha => by
      rw [List.length_reverse, List.length_take]; have := hp a ha; omega)
    rw [h1]
    exact ⟨by rw [List.length_drop]; omega, h2⟩
  · rw [e]
    exact Sized.refl m

theorem string_good {m : Mem} {p : Option Nat} {k : Nat} {d : Nat} (s : Bytes) (hp : ∀ a, p = some a → k ≤ (m a).length ∧ 0 < k) :
    Good m s.length d (string flat p k s m) := by
  unfold string
  rcases flat_get s 2 with ⟨h, e⟩ | ⟨h, e⟩
  · rw [e]
    simp only []
    have hle : (s.drop 2).length ≤ s.length := by rw [List.length_drop]; omega
    cases p with
    | none =>
      refine Good.mono (fetch_good (d := s.length) _ (fun a ha => by cases ha) (fun s' m' hs hm => ⟨by omega, hm⟩)) (.refl m) hle
        (fun hh => ?_)
      rw [List.length_drop] at hh
      omega
    | some a =>
      obtain ⟨hk, hk0⟩ := hp a rfl
      simp only []
      split
      · rw [if_neg (by omega)]
        refine Good.mono (d' := s.length) (fetch_good _ (fun b hb => by cases hb; omega) (fun s' m' hs hm => ?_)) (.refl m) hle (fun hh => ?_)
        · obtain ⟨m2, h1, h2⟩ := wr_some (m := m') (a := a) (off := k - 1) (bs := [0]) (by rw [hm a]; simp; omega)
          rw [h1]
          refine Good.mono (d' := s.length) (fetch_good _ (fun b hb => by cases hb) (fun s3 m3 hs3 hm3 => ⟨by omega, hm3⟩)) (hm.trans h2) (by omega)
            (fun hh => ?_)
          rw [List.length_drop] at hs
          omega
        · rw [List.length_drop] at hh
          omega
      · rename_i hlt
        rcases flat_get (s.drop 2) (be16 (s.take 2)) with ⟨h', e'⟩ | ⟨h', e'⟩
        · rw [e']
          simp only []
          obtain ⟨m1, h1, h2⟩ := wr_some (m := m) (a := a) (off := 0) (bs := (s.drop 2).take (be16 (s.take 2))) (by
            rw [List.length_take]; omega)
          rw [h1]
          simp only []
          obtain ⟨m2, h3, h4⟩ := wr_some (m := m1) (a := a) (off := be16 (s.take 2)) (bs := [0]) (by rw [h2 a]; simp; omega)
          rw [h3]
          exact ⟨by simp only [List.length_drop]; omega, h2.trans h4⟩
        · rw [e']
          simp only []
          obtain ⟨m1, h1, h2⟩ := wr_some (m := m) (a := a) (off := 0) (bs := s.drop 2) (by omega)
          rw [h1]
          simp only []
          obtain ⟨m2, h3, h4⟩ := wr_some (m := m1) (a := a) (off := be16 (s.take 2)) (bs := [0]) (by rw [h2 a]; simp; omega)
          rw [h3]
          exact h2.trans h4
  · rw [e]
    exact Sized.refl m

theorem readName_left {k n : Nat} {s b s' : Bytes} (h : readName flat k n s = some (b, s')) : s'.length + n = s.length := by
  unfold readName at h
  split at h
  · rcases flat_get s n with ⟨h1, e⟩ | ⟨h1, e⟩
    · rw [e] at h
      simp only [Option.some.injEq, Prod.mk.injEq] at h
      rw [← h.2, List.length_drop]
      omega
    · rw [e] at h
      simp at h
  · rcases flat_get s k with ⟨h1, e⟩ | ⟨h1, e⟩
    · rw [e] at h
      simp only [] at h
      rcases flat_get (s.drop k) (n - k) with ⟨h2, e2⟩ | ⟨h2, e2⟩
      · rw [e2] at h
        simp only [Option.some.injEq, Prod.mk.injEq] at h
        rw [List.length_drop] at h2
        rw [← h.2, List.length_drop, List.length_drop]
        omega
      · rw [e2] at h
        simp at h
    · rw [e] at h
      simp at h

/-- The nested calls are safe. -/
def RecGood (d : Nat) (r : Option Elt → Bytes → Mem → Out Bytes) : Prop :=
  ∀ e s m, (∀ x, e = some x → Fit m x) → Good m s.length d (r e s m)

theorem findName_mem {n : Nat} {name : Bytes} {es : List Elt} {e : Elt} (h : findName n name es = some e) : e ∈ es := List.mem_of_find?_eq_some h

theorem objLoop_good {d : Nat} {r : Option Elt → Bytes → Mem → Out Bytes} (hr : RecGood d r) (es : List Elt) :
    ∀ f s m, (∀ e ∈ es, Fit m e) → s.length < f → Good m s.length (d + 1) (objLoop flat r es f s m) := by
  intro f
  induction f with
  | zero => intro s m _ h; omega
  | succ f ih =>
    intro s m hes hf
    simp only [objLoop]
    rcases flat_get s 2 with ⟨h, e⟩ | ⟨h, e⟩
    · rw [e]
      simp only []
      split
      · rcases flat_get (s.drop 2) 1 with ⟨h', e'⟩ | ⟨h', e'⟩
        · rw [e']
          simp only []
          split
          · exact ⟨by simp only [List.length_drop]; omega, .refl m⟩
          · exact Sized.refl m
        · rw [e']
          exact Sized.refl m
      · cases hn : readName flat (maxLen es) (be16 (s.take 2)) (s.drop 2) with
        | none => exact Sized.refl m
        | some q =>
          obtain ⟨name, s2⟩ := q
          simp only []
          have hl := readName_left hn
          rw [List.length_drop] at hl
          have hg := hr (findName (be16 (s.take 2)) name es) s2 m (fun x hx => hes x (findName_mem hx))
          cases hq : r (findName (be16 (s.take 2)) name es) s2 m with
          | ok s3 m3 =>
            rw [hq] at hg
            simp only []
            refine (ih s3 m3 (fun e he => (hes e he).sized hg.2) (by have := hg.1; omega)).mono hg.2 (by have := hg.1; omega) (fun hh => ?_)
            have := hg.1
            omega
          | stop s3 m3 =>
            rw [hq] at hg
            simp only []
            refine (ih s3 m3 (fun e he => (hes e he).sized hg.2) (by have := hg.1; omega)).mono hg.2 (by have := hg.1; omega) (fun hh => ?_)
            have := hg.1
            omega
          | err m3 =>
            rw [hq] at hg
            exact hg
          | ub =>
            rw [hq] at hg
            exact hg
          | deep =>
            rw [hq] at hg
            have hg : d ≤ s2.length := hg
            show d + 1 ≤ s.length
            omega
    · rw [e]
      exact ⟨Nat.le_refl _, .refl m⟩

theorem arrLoop_good {d : Nat} {r : Option Elt → Bytes → Mem → Out Bytes} (hr : RecGood d r) (es : List Elt) :
    ∀ f n s m, (∀ e ∈ es, Fit m e) → Good m s.length d (arrLoop r es f n s m) := by
  intro f
  induction f with
  | zero => intro n s m _; exact ⟨Nat.le_refl _, .refl m⟩
  | succ f ih =>
    intro n s m hes
    simp only [arrLoop]
    have hg := hr es[n]? s m (fun x hx => hes x (List.mem_of_getElem? hx))
    cases hq : r es[n]? s m with
    | ok s3 m3 =>
      rw [hq] at hg
      simp only []
      exact (ih (n + 1) s3 m3 (fun e he => (hes e he).sized hg.2)).mono hg.2 hg.1 (fun hh => Nat.le_trans hh hg.1)
    | stop s3 m3 =>
      rw [hq] at hg
      simp only []
      exact (ih (n + 1) s3 m3 (fun e he => (hes e he).sized hg.2)).mono hg.2 hg.1 (fun hh => Nat.le_trans hh hg.1)
    | err m3 =>
      rw [hq] at hg
      exact hg
    | ub =>
      rw [hq] at hg
      exact hg
    | deep =>
      rw [hq] at hg
      exact hg

theorem alternative_mem {t : Nat} {es : List Elt} {e : Elt} (h : alternative t es = some e) : e ∈ es ∧ e.base = t := by
  have := List.mem_of_getLast? h
  simp only [List.mem_filter, Bool.and_eq_true, beq_iff_eq] at this
  exact ⟨this.1, this.2.1.1⟩

theorem value_good {d : Nat} {r : Option Elt → Bytes → Mem → Out Bytes} (hr : RecGood d r) (type : Nat) (p : Option Nat) (sub : List Elt)
    (len : Nat) (s : Bytes) (m : Mem) (hp : ∀ a, p = some a → room type len ≤ (m a).length ∧ (type = tString → 0 < len))
    (hsub : ∀ e ∈ sub, Fit m e) : Good m s.length (d + 1) (value flat r type p sub len s m) := by
  have hobj : ∀ s, Good m s.length (d + 1) (object flat r sub s m) := fun s => objLoop_good hr sub _ s m hsub (by simp [flat])
  unfold value
  by_cases h0 : type = tNumber
  · simp only [if_pos h0]
    refine fetchRev_good s (fun a ha => ?_)
    have := (hp a ha).1
    simpa [room, h0] using this
  by_cases h1 : type = tBoolean
  · simp only [if_neg h0, if_pos h1]
    refine fetch_good s (fun a ha => ?_) (fun s' m' hs hm => ⟨by omega, hm⟩)
    have := (hp a ha).1
    subst h1
    simpa [room, tNumber, tBoolean] using this
  by_cases h2 : type = tString
  · simp only [if_neg h0, if_neg h1, if_pos h2]
    refine string_good s (fun a ha => ?_)
    obtain ⟨h3, h4⟩ := hp a ha
    refine ⟨?_, h4 h2⟩
    simpa [room, if_neg h0, if_neg h1, if_pos h2] using h3
  by_cases h3 : type = tNull ∨ type = tArrayNull
  · simp only [if_neg h0, if_neg h1, if_neg h2, if_pos h3]
    exact ⟨Nat.le_refl _, .refl m⟩
  by_cases h4 : type = tMixed
  · simp only [if_neg h0, if_neg h1, if_neg h2, if_neg h3, if_pos h4]
    rcases flat_get s 4 with ⟨h, e⟩ | ⟨h, e⟩
    · rw [e]
      refine (hobj _).mono (.refl m) (by rw [List.length_drop]; omega) (fun hh => ?_)
      rw [List.length_drop] at hh
      omega
    · rw [e]
      exact Sized.refl m
  by_cases h5 : type = tObject
  · simp only [if_neg h0, if_neg h1, if_neg h2, if_neg h3, if_neg h4, if_pos h5]
    exact hobj s
  by_cases h6 : type = tArray
  · simp only [if_neg h0, if_neg h1, if_neg h2, if_neg h3, if_neg h4, if_neg h5, if_pos h6]
    unfold array
    rcases flat_get s 4 with ⟨h, e⟩ | ⟨h, e⟩
    · rw [e]
      refine (arrLoop_good hr sub _ 0 _ m hsub).mono (.refl m) (by rw [List.length_drop]; omega) (fun hh => ?_)
      rw [List.length_drop] at hh
      omega
    · rw [e]
      exact Sized.refl m
  by_cases h7 : type = tVariant
  · simp only [if_neg h0, if_neg h1, if_neg h2, if_neg h3, if_neg h4, if_neg h5, if_neg h6, if_pos h7]
    unfold variant
    rcases flat_get s 1 with ⟨h, e⟩ | ⟨h, e⟩
    · rw [e]
      simp only []
      cases ha : alternative (byteOf (s.take 1)) sub with
      | none =>
        refine (hr _ _ m (fun x hx => ?_)).mono (.refl m) (by rw [List.length_drop]; omega) (fun hh => ?_)
        · cases hx
          exact .mk _ _ _ _ _ _ _ (fun a ha => by cases ha) (fun _ => rfl) (fun e he => by cases he)
        · rw [List.length_drop] at hh
          omega
      | some x =>
        refine (hr _ _ m (fun y hy => ?_)).mono (.refl m) (by rw [List.length_drop]; omega) (fun hh => ?_)
        · cases hy
          obtain ⟨hm, hb⟩ := alternative_mem ha
          have := hsub x hm
          cases this with
          | mk base tl opt name mem sub' len' q1 q2 q3 =>
            simp only [Elt.base] at hb
            simp only [Elt.mem, Elt.sub, Elt.len]
            rw [← hb]
            exact .mk _ _ _ _ _ _ _ q1 (fun _ => rfl) q3
        · rw [List.length_drop] at hh
          omega
    · rw [e]
      exact Sized.refl m
  simp only [if_neg h0, if_neg h1, if_neg h2, if_neg h3, if_neg h4, if_neg h5, if_neg h6, if_neg h7]
  split
  · rename_i h8
    refine fetch_good s (fun a ha => ?_) (fun s' m' hs hm => ⟨by omega, hm⟩)
    have := (hp a ha).1
    subst h8
    simpa [room, tNumber, tBoolean, tString, tInt8] using this
  split
  · rename_i h8 h9
    refine fetchRev_good s (fun a ha => ?_)
    have := (hp a ha).1
    subst h9
    simpa [room, tNumber, tBoolean, tString, tInt8, tInt16] using this
  split
  · rename_i h10
    refine fetchRev_good s (fun a ha => ?_)
    have := (hp a ha).1
    subst h10
    simpa [room, tNumber, tBoolean, tString, tInt8, tInt16, tInt32] using this
  split
  · exact ⟨Nat.le_refl _, .refl m⟩
  · exact Sized.refl m

theorem compat_cases {a b : Nat} (h : compat a b = true) : a = b ∨ ((a = tObject ∨ a = tMixed) ∧ (b = tObject ∨ b = tMixed)) := by
  simp only [compat, Bool.or_eq_true, Bool.and_eq_true, beq_iff_eq] at h
  rcases h with (h | h) | h
  · exact .inl h
  · exact .inr ⟨.inl h.1, .inr h.2⟩
  · exact .inr ⟨.inr h.2, .inl h.1⟩

theorem step_good {d : Nat} {r : Option Elt → Bytes → Mem → Out Bytes} (hr : RecGood d r) : RecGood (d + 1) (step flat r) := by
  intro e s m he
  unfold step
  cases e with
  | none =>
    simp only []
    rcases flat_get s 1 with ⟨h, e⟩ | ⟨h, e⟩
    · rw [e]
      refine (value_good hr _ none [] 0 _ m (fun a ha => by cases ha) (fun e he => by cases he)).mono (.refl m) (by rw [List.length_drop]; omega)
        (fun hh => ?_)
      rw [List.length_drop] at hh
      omega
    · rw [e]
      exact Sized.refl m
  | some x =>
    simp only []
    obtain ⟨q1, q2, q3⟩ := (he x rfl).inv
    split
    · split
      · exact Sized.refl m
      · exact value_good hr _ _ _ _ _ m q1 q3
    · rename_i htl
      rcases flat_get s 1 with ⟨h, e⟩ | ⟨h, e⟩
      · rw [e]
        simp only []
        split
        · rename_i hc
          refine (value_good hr _ x.mem x.sub x.len _ m (fun a ha => ?_) q3).mono (.refl m) (by rw [List.length_drop]; omega) (fun hh => ?_)
          · have hb : x.base < 256 := by
              by_cases hb : 256 ≤ x.base
              · exact absurd (q2 hb) htl
              · omega
            rw [Nat.mod_eq_of_lt hb] at hc
            rcases compat_cases hc with hc | ⟨hc1, hc2⟩
            · rw [← hc]
              exact q1 a ha
            · rcases hc2 with hc2 | hc2 <;> rw [hc2] <;> exact ⟨Nat.zero_le _, fun hh => by cases hh⟩
          · rw [List.length_drop] at hh
            omega
        · refine (value_good hr _ none [] x.len _ m (fun a ha => by cases ha) (fun e he => by cases he)).mono (.refl m)
            (by rw [List.length_drop]; omega) (fun hh => ?_)
          rw [List.length_drop] at hh
          omega
      · rw [e]
        simp only []
        split
        · exact ⟨Nat.le_refl _, .refl m⟩
        · exact Sized.refl m

theorem one_good : ∀ d, RecGood d (one flat d) := by
  intro d
  induction d with
  | zero => intro e s m _; exact Nat.zero_le _
  | succ d ih => exact step_good ih

theorem loop_good {d : Nat} {r : Option Elt → Bytes → Mem → Out Bytes} (hr : RecGood d r) :
    ∀ es s m, (∀ e ∈ es, Fit m e) → Good m s.length (d + 1) (loop flat r es s m) := by
  intro es
  induction es with
  | nil => intro s m _; exact ⟨Nat.le_refl _, .refl m⟩
  | cons e es ih =>
    intro s m hes
    simp only [loop]
    have hg := step_good hr (some e) s m (fun x hx => by cases hx; exact hes e (by simp))
    cases hq : step flat r (some e) s m with
    | ok s3 m3 =>
      rw [hq] at hg
      simp only []
      exact (ih s3 m3 (fun e he => (hes e (by simp [he])).sized hg.2)).mono hg.2 hg.1 (fun hh => Nat.le_trans hh hg.1)
    | stop s3 m3 =>
      rw [hq] at hg
      exact hg
    | err m3 =>
      rw [hq] at hg
      exact hg
    | ub =>
      rw [hq] at hg
      exact hg
    | deep =>
      rw [hq] at hg
      exact hg

theorem read_good (d : Nat) (es : List Elt) (s : Bytes) (m : Mem) (hes : ∀ e ∈ es, Fit m e) : Good m s.length d (read flat d es s m) := by
  cases d with
  | zero => exact Nat.zero_le _
  | succ d => exact loop_good (one_good d) es s m hes

end Verif.Amf
