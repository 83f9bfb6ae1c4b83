import Verif.RtmpKmpSpec

/-!
# RTMP to KMP: reading messages
-/

namespace Verif.RtmpKmp

open Verif.Rtmp (Msg)
open Verif.RtmpKmpSpec (Tag readTag)

theorem skip_flatten : ∀ (b : Bytes) (l : List Bytes), (skip b l).flatten = b ++ l.flatten := by
  intro b l
  induction l generalizing b with
  | nil => cases b <;> simp [skip]
  | cons c l ih => cases b <;> simp [skip, ih]

theorem skip_nil : ∀ (b : Bytes) (l : List Bytes), skip b l = [] → b ++ l.flatten = [] := by
  intro b l h
  rw [← skip_flatten, h]; rfl

/-- Some bytes at the start of a chain. -/
theorem copy_eq : ∀ (l : List Bytes) {n : Nat}, 1 ≤ n → n ≤ l.flatten.length → ∃ r, copy n l = some (l.flatten.take n, r) ∧ r.flatten = l.flatten.drop n := by
  intro l
  induction l with
  | nil => intro n h1 h2; simp at h2; omega
  | cons b l ih =>
    intro n h1 h2
    unfold copy
    by_cases h : n ≤ b.length
    · rw [if_pos h]
      refine ⟨_, by rw [List.flatten_cons, List.take_append_of_le_length h], ?_⟩
      rw [skip_flatten, List.flatten_cons, List.drop_append_of_le_length h]
    · rw [if_neg h]
      rw [List.flatten_cons, List.length_append] at h2
      obtain ⟨r, e1, e2⟩ := ih (n := n - b.length) (by omega) (by omega)
      refine ⟨r, ?_, ?_⟩
      · rw [e1, Option.map_some, List.flatten_cons, List.take_append]
        rw [List.take_of_length_le (by omega : b.length ≤ n)]
      · rw [e2, List.flatten_cons, List.drop_append, List.drop_of_length_le (by omega : b.length ≤ n)]
        rfl

theorem copy_cons1 {l : List Bytes} {a : UInt8} {d : Bytes} (h : l.flatten = a :: d) : ∃ r, copy 1 l = some ([a], r) ∧ r.flatten = d := by
  obtain ⟨r, e1, e2⟩ := copy_eq l (n := 1) (by omega) (by rw [h]; simp)
  exact ⟨r, by rw [e1, h]; rfl, by rw [e2, h]; rfl⟩

theorem copy_cons3 {l : List Bytes} {a b c : UInt8} {d : Bytes} (h : l.flatten = a :: b :: c :: d) : ∃ r, copy 3 l = some ([a, b, c], r) ∧ r.flatten = d := by
  obtain ⟨r, e1, e2⟩ := copy_eq l (n := 3) (by omega) (by rw [h]; simp)
  exact ⟨r, by rw [e1, h]; rfl, by rw [e2, h]; rfl⟩

theorem copy_cons4 {l : List Bytes} {a b c e : UInt8} {d : Bytes} (h : l.flatten = a :: b :: c :: e :: d) :
    ∃ r, copy 4 l = some ([a, b, c, e], r) ∧ r.flatten = d := by
  obtain ⟨r, e1, e2⟩ := copy_eq l (n := 4) (by omega) (by rw [h]; simp)
  exact ⟨r, by rw [e1, h]; rfl, by rw [e2, h]; rfl⟩

/-! ## Bits -/

theorem all_bytes {P : UInt8 → Prop} (h : ∀ n : Fin 256, P (UInt8.ofNat n)) (k : UInt8) : P k := by
  have := h ⟨k.toNat, UInt8.toNat_lt k⟩
  simpa using this

theorem ext_bit (k : UInt8) : (k &&& 0x80 = 0) ↔ k.toNat < 128 := all_bytes (P := fun k => (k &&& 0x80 = 0) ↔ k.toNat < 128) (by decide +kernel) k

theorem low_seven (k : UInt8) : (k &&& 0x0f ≠ 7) ↔ k.toNat % 16 ≠ 7 := all_bytes (P := fun k => (k &&& 0x0f ≠ 7) ↔ k.toNat % 16 ≠ 7) (by decide +kernel) k

theorem high_one (k : UInt8) : (k >>> 4 = 1) ↔ k.toNat / 16 = 1 := all_bytes (P := fun k => (k >>> 4 = 1) ↔ k.toNat / 16 = 1) (by decide +kernel) k

theorem high_ten (k : UInt8) : (k >>> 4 ≠ 10) ↔ k.toNat / 16 ≠ 10 := all_bytes (P := fun k => (k >>> 4 ≠ 10) ↔ k.toNat / 16 ≠ 10) (by decide +kernel) k

theorem ext_high (k : UInt8) : ((k &&& 0x7f) >>> 4 = 1) ↔ k.toNat / 16 % 8 = 1 :=
  all_bytes (P := fun k => ((k &&& 0x7f) >>> 4 = 1) ↔ k.toNat / 16 % 8 = 1) (by decide +kernel) k

theorem ext_zero (k : UInt8) : ((k &&& 0x7f &&& 0x0f) == 0) = decide (k.toNat % 16 = 0) :=
  all_bytes (P := fun k => ((k &&& 0x7f &&& 0x0f) == 0) = decide (k.toNat % 16 = 0)) (by decide +kernel) k

theorem ext_one (k : UInt8) : ((k &&& 0x7f &&& 0x0f) == 1) = decide (k.toNat % 16 = 1) :=
  all_bytes (P := fun k => ((k &&& 0x7f &&& 0x0f) == 1) = decide (k.toNat % 16 = 1)) (by decide +kernel) k

theorem join24 (a b c : UInt8) : a.toNat <<< 16 ||| b.toNat <<< 8 ||| c.toNat = a.toNat * 65536 + b.toNat * 256 + c.toNat := by
  have ha := UInt8.toNat_lt a
  have hb := UInt8.toNat_lt b
  have hc := UInt8.toNat_lt c
  rw [Nat.or_assoc, ← Nat.shiftLeft_add_eq_or_of_lt (by omega : c.toNat < 2 ^ 8), ← Nat.shiftLeft_add_eq_or_of_lt]
  · rw [Nat.shiftLeft_eq, Nat.shiftLeft_eq]; omega
  · rw [Nat.shiftLeft_eq]; omega

theorem sign24 {n : Nat} (h : n < 2 ^ 24) : (n &&& 0x800000 ≠ 0) ↔ 2 ^ 23 ≤ n := by
  have e : (0x800000 : Nat) = 2 ^ 23 := by decide
  have ht : n.testBit 23 = decide (2 ^ 23 ≤ n) := by
    rw [Nat.testBit_eq_decide_div_mod_eq]
    exact decide_eq_decide.2 (by omega)
  rw [e]
  constructor
  · intro h0
    obtain ⟨i, hi⟩ := Nat.exists_testBit_of_ne_zero h0
    rw [Nat.testBit_and, Nat.testBit_two_pow, Bool.and_eq_true, decide_eq_true_eq] at hi
    rw [← hi.2, ht] at hi
    exact of_decide_eq_true hi.1
  · intro hl h0
    have := congrArg (fun x => x.testBit 23) h0
    rw [Nat.testBit_and, Nat.testBit_two_pow, ht, decide_eq_true hl] at this
    simp at this

/-- A composition time fits, times a small number. -/
theorem delay_eq {scale : Nat} (hs : scale ≤ 255) (a b c : UInt8) : i32 ((if (a.toNat <<< 16 ||| b.toNat <<< 8 ||| c.toNat) &&& 0x800000 ≠ 0 then
    ((a.toNat <<< 16 ||| b.toNat <<< 8 ||| c.toNat : Nat) : Int) - 2 ^ 24 else ((a.toNat <<< 16 ||| b.toNat <<< 8 ||| c.toNat : Nat) : Int)) * scale) =
      RtmpKmpSpec.rd24 a b c * scale := by
  have ha := UInt8.toNat_lt a
  have hb := UInt8.toNat_lt b
  have hc := UInt8.toNat_lt c
  rw [join24]
  unfold RtmpKmpSpec.rd24
  simp only []
  obtain ⟨n, hn⟩ : ∃ n, n = a.toNat * 65536 + b.toNat * 256 + c.toNat := ⟨_, rfl⟩
  rw [← hn]
  have hlt : n < 2 ^ 24 := by omega
  have hv : (if n &&& 0x800000 ≠ 0 then ((n : Nat) : Int) - 2 ^ 24 else (n : Int)) = (if n < 2 ^ 23 then (n : Int) else (n : Int) - 2 ^ 24) := by
    by_cases h : n < 2 ^ 23
    · rw [if_neg (by rw [sign24 hlt]; omega), if_pos h]
    · rw [if_pos (by rw [sign24 hlt]; omega), if_neg h]
  rw [hv]
  obtain ⟨v, hv, h1, h2⟩ : ∃ v : Int, v = (if n < 2 ^ 23 then (n : Int) else (n : Int) - 2 ^ 24) ∧ -2 ^ 23 ≤ v ∧ v < 2 ^ 23 := by
    refine ⟨_, rfl, ?_, ?_⟩ <;> split <;> omega
  rw [← hv]
  have m1 : v * (scale : Int) ≤ 2 ^ 23 * 255 := by
    by_cases hp : 0 ≤ v
    · exact Int.le_trans (Int.mul_le_mul_of_nonneg_right (by omega : v ≤ 2 ^ 23) (by omega)) (Int.mul_le_mul_of_nonneg_left (by omega) (by decide))
    · have := Int.mul_nonneg (by omega : 0 ≤ -v) (by omega : (0 : Int) ≤ (scale : Int))
      rw [Int.neg_mul] at this; omega
  have m2 : -(2 ^ 23 * 255) ≤ v * (scale : Int) := by
    by_cases hp : 0 ≤ v
    · have := Int.mul_nonneg hp (by omega : (0 : Int) ≤ (scale : Int)); omega
    · have : (-v) * (scale : Int) ≤ 2 ^ 23 * 255 :=
        Int.le_trans (Int.mul_le_mul_of_nonneg_right (by omega : -v ≤ 2 ^ 23) (by omega)) (Int.mul_le_mul_of_nonneg_left (by omega) (by decide))
      rw [Int.neg_mul] at this; omega
  unfold i32
  omega

/-! ## The start of a message -/

/-- The head says what the tag says. -/
def Says (scale : Nat) (h : Head) : Tag → Prop
  | .config d => h.config = true ∧ h.size = d.length ∧ h.rest.flatten = d
  | .frame key delay d => h.config = false ∧ h.size = d.length ∧ h.rest.flatten = d ∧ h.flags = (if key then 1 else 0) ∧ h.pts = delay * scale

theorem readDelay_eq {scale : Nat} (hs : scale ≤ 255) {h : Head} {a b c : UInt8} {d : Bytes} (hr : h.rest.flatten = a :: b :: c :: d) (hz : h.size = d.length + 3)
    (hl : h.size < 2 ^ 32) : ∃ r, readDelay scale true h = .ok { h with size := d.length, pts := RtmpKmpSpec.rd24 a b c * scale, rest := r } ∧ r.flatten = d := by
  obtain ⟨r, e1, e2⟩ := copy_cons3 hr
  refine ⟨r, ?_, e2⟩
  unfold readDelay
  simp only [if_true, e1]
  rw [delay_eq hs]
  have : (h.size + 2 ^ 32 - 3) % 2 ^ 32 = d.length := by omega
  rw [this]

theorem readHead_eq {c : Conf} {m : Msg} {video : Bool} {tag : Tag} (hs : c.timescale / 1000 ≤ 255) (ht : m.type = if video then 9 else 8)
    (hl : m.mlen = m.data.flatten.length) (hm : m.mlen < 2 ^ 32) (hr : readTag video m.data.flatten = some tag) : ∃ h, readHead c m = .ok h ∧ Says (c.timescale / 1000) h tag := by
  obtain ⟨p, hp⟩ : ∃ p, p = m.data.flatten := ⟨_, rfl⟩
  rw [← hp] at hr hl
  cases p with
  | nil => cases video <;> simp [readTag, RtmpKmpSpec.readVideo, RtmpKmpSpec.readAudio] at hr
  | cons k r =>
    obtain ⟨l1, e1, f1⟩ := copy_cons1 hp.symm
    unfold readHead
    simp only [e1]
    simp only [List.length_cons] at hl
    have hsz : (m.mlen + 2 ^ 32 - 1) % 2 ^ 32 = r.length := by omega
    rw [hsz]
    cases video with
    | true =>
      simp only [if_true] at ht
      rw [if_pos ht]
      simp only [readTag, if_true, RtmpKmpSpec.readVideo] at hr
      by_cases hx : k.toNat < 128
      · rw [if_pos hx] at hr
        rw [if_pos ((ext_bit k).2 hx)]
        by_cases h7 : k.toNat % 16 = 7
        · rw [if_pos h7] at hr
          rw [if_neg (by rw [low_seven]; simpa using h7)]
          match r, f1, hr, hl, hsz with
          | q :: a :: b :: c' :: d, f1, hr, hl, hsz =>
            obtain ⟨l2, e2, f2⟩ := copy_cons1 f1
            simp only [e2]
            have hz2 : ((q :: a :: b :: c' :: d).length + 2 ^ 32 - 1) % 2 ^ 32 = d.length + 3 := by simp only [List.length_cons] at hl ⊢; omega
            rw [hz2]
            obtain ⟨l3, e3, f3⟩ := readDelay_eq hs (h := { size := d.length + 3, config := q == 0, flags := if k >>> 4 = 1 then 1 else 0, rest := l2 }) f2 rfl
              (by simp only [List.length_cons] at hl ⊢; omega)
            refine ⟨_, e3, ?_⟩
            simp only [Option.some.injEq] at hr
            subst hr
            by_cases hq : q = 0
            · rw [if_pos hq]
              exact ⟨by simp [hq], rfl, f3⟩
            · rw [if_neg hq]
              refine ⟨by simp [hq], rfl, f3, ?_, rfl⟩
              by_cases hk : k.toNat / 16 = 1
              · simp [(high_one k).2 hk, hk]
              · simp [mt (high_one k).1 hk, hk]
          | [], _, hr, _, _ => simp at hr
          | [_], _, hr, _, _ => simp at hr
          | [_, _], _, hr, _, _ => simp at hr
          | [_, _, _], _, hr, _, _ => simp at hr
        · rw [if_neg h7] at hr
          simp at hr
      · rw [if_neg hx] at hr
        rw [if_neg (by rw [ext_bit]; exact hx)]
        match r, f1, hr, hl, hsz with
        | w :: x :: y :: z :: d, f1, hr, hl, hsz =>
          obtain ⟨l2, e2, f2⟩ := copy_cons4 f1
          simp only [e2]
          have hz2 : ((w :: x :: y :: z :: d).length + 2 ^ 32 - 4) % 2 ^ 32 = d.length := by simp only [List.length_cons] at hl ⊢; omega
          rw [hz2, ext_zero, ext_one]
          have hkey : (if (k &&& 0x7f) >>> 4 = 1 then 1 else 0) = if (k.toNat / 16 % 8 == 1) = true then 1 else 0 := by
            by_cases hk : k.toNat / 16 % 8 = 1
            · simp [(ext_high k).2 hk, hk]
            · simp [mt (ext_high k).1 hk, hk]
          simp only [] at hr
          by_cases h0 : k.toNat % 16 = 0
          · rw [if_pos h0] at hr
            simp only [Option.some.injEq] at hr
            subst hr
            have : k.toNat % 16 ≠ 1 := by omega
            rw [decide_eq_false this, decide_eq_true h0, Bool.and_false]
            unfold readDelay
            rw [if_neg (by decide)]
            refine ⟨_, rfl, ?_⟩
            exact ⟨rfl, rfl, f2⟩
          · rw [if_neg h0] at hr
            by_cases h1 : k.toNat % 16 = 1 ∧ ([w, x, y, z] = [104, 118, 99, 49] ∨ [w, x, y, z] = [104, 101, 118, 49])
            · rw [if_pos h1] at hr
              have hb : (([w, x, y, z] == [0x68, 0x76, 0x63, 0x31] || [w, x, y, z] == [0x68, 0x65, 0x76, 0x31]) && decide (k.toNat % 16 = 1)) = true := by
                rw [Bool.and_eq_true, Bool.or_eq_true, beq_iff_eq, beq_iff_eq, decide_eq_true_eq]
                exact ⟨h1.2, h1.1⟩
              rw [hb]
              clear hz2 hsz
              rcases d with _ | ⟨a, _ | ⟨b, _ | ⟨c', d⟩⟩⟩
              · simp at hr
              · simp at hr
              · simp at hr
              · obtain ⟨l3, e3, f3⟩ := readDelay_eq hs (h := { size := (a :: b :: c' :: d).length, config := decide (k.toNat % 16 = 0), flags := if (k &&& 0x7f) >>> 4 = 1 then 1 else 0, rest := l2 })
                  f2 rfl (by simp only [List.length_cons] at hl ⊢; omega)
                refine ⟨_, e3, ?_⟩
                simp only [Option.some.injEq] at hr
                subst hr
                exact ⟨by simpa using h0, rfl, f3, hkey, rfl⟩
            · rw [if_neg h1] at hr
              have hb : (([w, x, y, z] == [0x68, 0x76, 0x63, 0x31] || [w, x, y, z] == [0x68, 0x65, 0x76, 0x31]) && decide (k.toNat % 16 = 1)) = false := by
                rw [← Bool.not_eq_true]
                rw [Bool.and_eq_true, Bool.or_eq_true, beq_iff_eq, beq_iff_eq, decide_eq_true_eq]
                exact fun hh => h1 ⟨hh.2, hh.1⟩
              rw [hb]
              simp only [Option.some.injEq] at hr
              subst hr
              refine ⟨_, rfl, ?_⟩
              exact ⟨by simpa using h0, rfl, f2, hkey, by simp⟩
        | [], _, hr, _, _ => simp at hr
        | [_], _, hr, _, _ => simp at hr
        | [_, _], _, hr, _, _ => simp at hr
        | [_, _, _], _, hr, _, _ => simp at hr
    | false =>
      simp only [Bool.false_eq_true, if_false] at ht
      rw [if_neg (by omega), if_pos ht]
      simp only [readTag, Bool.false_eq_true, if_false, RtmpKmpSpec.readAudio] at hr
      by_cases h10 : k.toNat / 16 = 10
      · rw [if_pos h10] at hr
        rw [if_neg (by rw [high_ten]; simpa using h10)]
        match r, f1, hr, hl, hsz with
        | q :: d, f1, hr, hl, hsz =>
          obtain ⟨l2, e2, f2⟩ := copy_cons1 f1
          simp only [e2]
          have hz2 : ((q :: d).length + 2 ^ 32 - 1) % 2 ^ 32 = d.length := by simp only [List.length_cons] at hl ⊢; omega
          rw [hz2]
          refine ⟨_, rfl, ?_⟩
          simp only [Option.some.injEq] at hr
          subst hr
          by_cases hq : q = 0
          · rw [if_pos hq]
            exact ⟨by simp [hq], rfl, f2⟩
          · rw [if_neg hq]
            exact ⟨by simp [hq], rfl, f2, by simp, by simp⟩
        | [], _, hr, _, _ => simp at hr
      · rw [if_neg h10] at hr
        rw [if_pos (by rw [high_ten]; exact h10)]
        simp only [Option.some.injEq] at hr
        subst hr
        exact ⟨_, rfl, rfl, rfl, f1, by simp, by simp⟩

end Verif.RtmpKmp
