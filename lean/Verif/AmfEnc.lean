import Verif.AmfWrite

/-!
# AMF0: what is written are the values of the elements, in full buffers
-/

namespace Verif.Amf

open Verif.AmfSpec (Value Fields Values marker enc u16 u32 behind text valueOf fieldsOf valuesOf Given)

/-- All buffers but the last one are full. -/
def W.Neat (cap : Nat) (w : W) : Prop := (∀ b ∈ w.full, b.length = cap) ∧ ∀ b, w.cur = some b → 0 < b.length ∧ b.length ≤ cap

/-- The bytes for which there is room: in the last buffer and in those that can still be allocated. -/
def W.room (cap : Nat) (w : W) : Nat := w.spare * cap + match w.cur with
  | none => 0
  | some b => cap - b.length

/-- There was no room, or the bytes were appended. -/
def Puts (cap : Nat) (w : W) (bs : Bytes) (r : Res W) : Prop :=
  (r = .err ∧ w.room cap < bs.length) ∨
    ∃ w', r = .ok w' ∧ w'.Neat cap ∧ w'.chain.flatten = w.chain.flatten ++ bs ∧ w'.room cap + bs.length = w.room cap

theorem putLoop_puts {cap : Nat} (hc : 0 < cap) : ∀ f w bs, w.Neat cap → bs.length < f → Puts cap w bs (putLoop cap f w bs) := by
  intro f
  induction f with
  | zero => intro w bs _ h; omega
  | succ f ih =>
    intro w bs hw hf
    simp only [putLoop]
    by_cases hb : bs = []
    · rw [if_pos hb, hb]
      exact .inr ⟨w, rfl, hw, by simp, by simp⟩
    rw [if_neg hb]
    have hbl : 0 < bs.length := List.length_pos_iff.mpr hb
    -- the buffer that is written to
    have hr : (ready cap w = .err ∧ w.room cap = 0) ∨ ∃ w1 b, ready cap w = .ok w1 ∧ w1.cur = some b ∧ b.length < cap ∧
        (∀ x ∈ w1.full, x.length = cap) ∧ w1.chain.flatten = w.chain.flatten ∧ w1.room cap = w.room cap := by
      have halloc : (∀ x ∈ w.chain, x.length = cap) → w.room cap = w.spare * cap → (alloc w = .err ∧ w.room cap = 0) ∨
          ∃ w1 b, alloc w = .ok w1 ∧ w1.cur = some b ∧ b.length < cap ∧
          (∀ x ∈ w1.full, x.length = cap) ∧ w1.chain.flatten = w.chain.flatten ∧ w1.room cap = w.room cap := by
        intro hall hroom
        unfold alloc
        split
        · rename_i h0
          exact .inl ⟨rfl, by rw [hroom, h0, Nat.zero_mul]⟩
        · rename_i h0
          refine .inr ⟨_, [], rfl, rfl, hc, hall, by simp [W.chain], ?_⟩
          rw [hroom]
          simp only [W.room, List.length_nil, Nat.sub_zero]
          obtain ⟨k, hk⟩ : ∃ k, w.spare = k + 1 := ⟨w.spare - 1, by omega⟩
          rw [hk, Nat.add_sub_cancel, Nat.succ_mul]
      unfold ready
      cases hcur : w.cur with
      | none =>
        refine halloc (fun x hx => ?_) (by simp [W.room, hcur])
        simp only [W.chain, hcur, Option.toList_none, List.append_nil] at hx
        exact hw.1 x hx
      | some b =>
        simp only []
        split
        · rename_i hfull
          refine halloc (fun x hx => ?_) (by simp [W.room, hcur, hfull])
          simp only [W.chain, hcur, Option.toList_some, List.mem_append, List.mem_singleton] at hx
          rcases hx with hx | hx
          · exact hw.1 x hx
          · rw [hx]; exact hfull
        · rename_i hnf
          exact .inr ⟨w, b, rfl, hcur, by have := (hw.2 b hcur).2; omega, hw.1, rfl, rfl⟩
    rcases hr with ⟨hr, h0⟩ | ⟨w1, b, hr, h1, h2, h3, h4, h5⟩
    · rw [hr]
      exact .inl ⟨rfl, by omega⟩
    rw [hr]
    simp only [h1]
    split
    · rename_i hle
      refine .inr ⟨_, rfl, ⟨h3, fun x hx => ?_⟩, ?_, ?_⟩
      · simp only [Option.some.injEq] at hx
        subst hx
        rw [List.length_append]
        omega
      · rw [← h4]
        simp [W.chain, h1]
      · rw [← h5]
        simp only [W.room, h1, List.length_append]
        omega
    · rename_i hgt
      have hn : W.Neat cap { w1 with cur := some (b ++ bs.take (cap - b.length)) } := by
        refine ⟨h3, fun x hx => ?_⟩
        simp only [Option.some.injEq] at hx
        subst hx
        rw [List.length_append, List.length_take]
        omega
      have hroom : W.room cap { w1 with cur := some (b ++ bs.take (cap - b.length)) } + (cap - b.length) = w.room cap := by
        rw [← h5]
        simp only [W.room, h1, List.length_append, List.length_take]
        omega
      rcases ih _ (bs.drop (cap - b.length)) hn (by rw [List.length_drop]; omega) with ⟨h, h'⟩ | ⟨w', e1, e2, e3, e4⟩
      · rw [List.length_drop] at h'
        exact .inl ⟨h, by omega⟩
      · refine .inr ⟨w', e1, e2, ?_, ?_⟩
        · rw [e3, ← h4]
          simp only [W.chain, h1, Option.toList_some, List.flatten_append, List.flatten_cons, List.flatten_nil, List.append_nil, List.append_assoc]
          rw [List.take_append_drop]
        · rw [List.length_drop] at e4
          omega

theorem put_puts {cap : Nat} (hc : 0 < cap) {w : W} (hw : w.Neat cap) (bs : Bytes) : Puts cap w bs (put cap w bs) :=
  putLoop_puts hc _ w bs hw (by omega)

theorem puts_nil {cap : Nat} {w : W} (hw : w.Neat cap) : Puts cap w [] (.ok w) := .inr ⟨w, rfl, hw, by simp, by simp⟩

/-- One after the other. -/
theorem puts_bind {cap : Nat} {w : W} {x y : Bytes} {r : Res W} {k : W → Res W} (h : Puts cap w x r)
    (hk : ∀ w', w'.Neat cap → Puts cap w' y (k w')) :
    Puts cap w (x ++ y) (match (generalizing := false) r with
      | .err => .err
      | .ub => .ub
      | .ok w => k w) := by
  rcases h with ⟨h, h'⟩ | ⟨w', h1, h2, h3, h4⟩
  · subst h
    exact .inl ⟨rfl, by rw [List.length_append]; omega⟩
  · subst h1
    rcases hk w' h2 with ⟨h, h'⟩ | ⟨w2, e1, e2, e3, e4⟩
    · exact .inl ⟨h, by rw [List.length_append]; omega⟩
    · refine .inr ⟨w2, e1, e2, ?_, by rw [List.length_append]; omega⟩
      rw [e3, h3, List.append_assoc]

theorem out16_eq {n : Nat} (h : n < 65536) : out16 n = u16 n := by
  unfold out16 u16
  rw [Nat.mod_eq_of_lt h]

theorem out32_eq {n : Nat} (h : n < 2 ^ 32) : out32 n = u32 n := by
  unfold out32 u32
  rw [Nat.mod_eq_of_lt (by omega)]

theorem peek_ok {m : Mem} {p : Option Nat} {n : Nat} (h : n ≤ (behind m p).length) : peek m p n = .ok ((behind m p).take n) := by
  unfold peek
  cases p with
  | none =>
    simp only [behind, List.length_nil, Nat.le_zero_eq] at h
    subst h
    rfl
  | some a =>
    simp only [behind] at h ⊢
    rw [if_pos h]

theorem writeRaw_puts {cap : Nat} (hc : 0 < cap) {w : W} (hw : w.Neat cap) {m : Mem} {p : Option Nat} {n : Nat} (rev : Bool)
    (h : n ≤ (behind m p).length) :
    Puts cap w (if rev then ((behind m p).take n).reverse else (behind m p).take n) (writeRaw cap m p n rev w) := by
  unfold writeRaw
  rw [peek_ok h]
  exact put_puts hc hw _

theorem take_takeWhile (l : Bytes) : l.take ((l.takeWhile (· ≠ 0)).length) = l.takeWhile (· ≠ 0) := by
  induction l with
  | nil => rfl
  | cons x xs ih =>
    simp only [List.takeWhile_cons]
    split
    · exact congrArg (x :: ·) ih
    · rfl

theorem takeWhile_length_le (l : Bytes) : (l.takeWhile (· ≠ 0)).length ≤ l.length := by
  induction l with
  | nil => simp
  | cons x xs ih =>
    simp only [List.takeWhile_cons]
    split
    · simpa using ih
    · simp

theorem writeString_puts {cap : Nat} (hc : 0 < cap) {w : W} (hw : w.Neat cap) {m : Mem} {p : Option Nat} {len : Nat}
    (h1 : len ≤ (behind m p).length) (h2 : len < 65536) (h3 : (text m p len).length < 65536) (h4 : len = 0 → p = none ∨ 0 ∈ behind m p) :
    Puts cap w (u16 (text m p len).length ++ text m p len) (writeString cap m p len w) := by
  have key : ∃ n, strLen m p len = .ok n ∧ n = (text m p len).length ∧
      peek m p n = .ok (text m p len) := by
    unfold strLen
    rw [Nat.mod_eq_of_lt h2]
    cases p with
    | none =>
      simp only [behind, List.length_nil, Nat.le_zero_eq] at h1
      subst h1
      exact ⟨0, rfl, by simp [text, behind], by simp [peek, text, behind]⟩
    | some a =>
      simp only []
      by_cases h0 : len = 0
      · rw [if_pos h0]
        have hm : 0 ∈ m a := by
          rcases h4 h0 with h | h
          · cases h
          · exact h
        have ht : text m (some a) len = (m a).takeWhile (· ≠ 0) := by simp [text, h0, behind]
        rw [ht] at h3 ⊢
        refine ⟨_, ?_, rfl, ?_⟩
        · rw [strlen, if_pos hm, Res.map_ok, Nat.mod_eq_of_lt h3]
        · rw [peek_ok (by exact takeWhile_length_le (m a))]
          exact congrArg Res.ok (take_takeWhile (m a))
      · rw [if_neg h0]
        have ht : text m (some a) len = (m a).take len := by simp [text, h0, behind]
        simp only [behind] at h1
        refine ⟨len, rfl, ?_, ?_⟩
        · rw [ht, List.length_take]
          omega
        · rw [peek_ok (by exact h1), ht]
          rfl
  obtain ⟨n, e1, e2, e3⟩ := key
  unfold writeString
  rw [e1]
  dsimp only
  have hb := put_puts hc hw (u16 (text m p len).length)
  rw [← e2, ← out16_eq (by omega)] at hb
  rw [← e2, ← out16_eq (by omega)]
  simp only [e3]
  exact puts_bind hb (fun w' hw' => put_puts hc hw' _)

/-- What is shown for one element. -/
def WritesOne (cap : Nat) (m : Mem) (e : Elt) : Prop := ∀ w, w.Neat cap → Puts cap w (enc (valueOf m e)) (writeOne cap m e w)

theorem writeObject_puts {cap : Nat} (hc : 0 < cap) {m : Mem} : ∀ (es : List Elt), (∀ e ∈ es, WritesOne cap m e) → (∀ e ∈ es, e.name.length < 65536) →
    ∀ w, w.Neat cap → Puts cap w (AmfSpec.fields (fieldsOf m es) ++ [0, 0]) (writeObject cap m es w) := by
  intro es
  induction es with
  | nil =>
    intro _ _ w hw
    simp only [writeObject, fieldsOf, AmfSpec.fields, List.nil_append]
    exact put_puts hc hw _
  | cons e es ih =>
    intro h1 h2 w hw
    have hn := h2 e (by simp)
    simp only [writeObject, fieldsOf, AmfSpec.fields, List.append_assoc]
    rw [out16_eq hn, Nat.mod_eq_of_lt hn, List.take_length]
    refine puts_bind (put_puts hc hw _) (fun w hw => ?_)
    refine puts_bind (put_puts hc hw _) (fun w hw => ?_)
    have := puts_bind (h1 e (by simp) w hw) (fun w hw => ih (fun e he => h1 e (by simp [he])) (fun e he => h2 e (by simp [he])) w hw)
    simp only [enc, List.cons_append, List.append_assoc] at this ⊢
    exact this

theorem writeAll_puts {cap : Nat} {m : Mem} : ∀ (es : List Elt), (∀ e ∈ es, WritesOne cap m e) →
    ∀ w, w.Neat cap → Puts cap w (AmfSpec.items (valuesOf m es)) (writeAll cap m es w) := by
  intro es
  induction es with
  | nil =>
    intro _ w hw
    exact puts_nil hw
  | cons e es ih =>
    intro h1 w hw
    simp only [writeAll, valuesOf, AmfSpec.items]
    have := puts_bind (h1 e (by simp) w hw) (fun w hw => ih (fun e he => h1 e (by simp [he])) w hw)
    simp only [enc, List.cons_append] at this ⊢
    exact this

theorem valuesOf_length (m : Mem) (es : List Elt) : (valuesOf m es).length = es.length := by
  induction es with
  | nil => rfl
  | cons e es ih => simp [valuesOf, Values.length, ih]

theorem Given.nameLt {m : Mem} {e : Elt} (h : Given m e) : e.name.length < 65536 := by
  cases h with
  | mk base name p sub len h0 h1 h2 h3 h4 h5 h6 => exact h1

/-- The body after the type byte. -/
theorem writesOne_of {cap : Nat} (hc : 0 < cap) {m : Mem} {e : Elt} (h : Given m e) : WritesOne cap m e := by
  induction h with
  | mk base name p sub len h0 h1 h2 h3 h4 h5 h6 ih =>
    intro w hw
    have hobj : ∀ w, w.Neat cap → Puts cap w (AmfSpec.fields (fieldsOf m sub) ++ [0, 0, 9]) (match writeObject cap m sub w with
        | .err => .err
        | .ub => .ub
        | .ok w => put cap w [UInt8.ofNat tEnd]) := by
      intro w hw
      have := puts_bind (writeObject_puts hc sub ih (fun e he => Given.nameLt (h6 e he)) w hw) (fun w hw => put_puts hc hw [UInt8.ofNat tEnd])
      rw [List.append_assoc] at this
      exact this
    have hmark : ∀ (v : Value) (k : W → Res W), (∀ w, w.Neat cap → Puts cap w (AmfSpec.body v) (k w)) → base = marker v →
        Puts cap w (enc v) (match put cap w [UInt8.ofNat base] with
          | .err => .err
          | .ub => .ub
          | .ok w => k w) := by
      intro v k hk hb
      rw [hb]
      exact puts_bind (x := [UInt8.ofNat (marker v)]) (put_puts hc hw _) hk
    simp only [List.mem_cons, List.not_mem_nil, or_false] at h0
    rcases h0 with rfl | rfl | rfl | rfl | rfl | rfl | rfl | rfl
    · refine hmark _ (writeRaw cap m p 8 true) (fun w hw => ?_) rfl
      exact writeRaw_puts hc hw true (h2 rfl)
    · refine hmark _ (writeRaw cap m p 1 false) (fun w hw => ?_) rfl
      have := writeRaw_puts hc hw false (h3 rfl)
      have hl := h3 rfl
      cases hb : behind m p with
      | nil => rw [hb] at hl; simp at hl
      | cons x xs =>
        rw [hb] at this
        simpa [AmfSpec.body, valueOf, hb] using this
    · refine hmark _ (writeString cap m p len) (fun w hw => ?_) rfl
      obtain ⟨q1, q2, q3, q4⟩ := h4 rfl
      exact writeString_puts hc hw q1 q2 q3 q4
    · refine hmark (.obj (fieldsOf m sub)) _ (fun w hw => ?_) rfl
      exact hobj w hw
    · refine hmark .null .ok (fun w hw => ?_) rfl
      exact puts_nil hw
    · refine hmark .undef .ok (fun w hw => ?_) rfl
      exact puts_nil hw
    · refine hmark (.ecma 0 (fieldsOf m sub)) _ (fun w hw => ?_) rfl
      exact puts_bind (put_puts hc hw [0, 0, 0, 0]) hobj
    · refine hmark (.strict (valuesOf m sub)) _ (fun w hw => ?_) rfl
      have := puts_bind (put_puts hc hw (out32 sub.length)) (writeAll_puts sub ih)
      rw [out32_eq h5] at this
      simp only [AmfSpec.body, valuesOf_length]
      rw [out32_eq h5]
      exact this

end Verif.Amf
