import Verif.TsAac

/-!
# AAC: the handler depends on the bytes
-/

namespace Verif.TsKmp

/-- The header at the start of bytes. -/
def flatHeader (l : List UInt8) : Res (Option (List UInt8 × Nat × List UInt8)) :=
  if l = [] then .ok none
  else if l.length < 7 then .err
  else if l.length < (if byte l 1 % 2 = 0 then 9 else 7) then .err
  else .ok (some (l.take (if byte l 1 % 2 = 0 then 9 else 7), (if byte l 1 % 2 = 0 then 9 else 7), l.drop (if byte l 1 % 2 = 0 then 9 else 7)))

/-- The position as the bytes that are left. -/
def bytesLeft (r : Option (List UInt8 × Nat × Chain)) : Option (List UInt8 × Nat × List UInt8) := r.map fun x => (x.1, x.2.1, x.2.2.flatten)

theorem adts9_flat (c : Chain) (hc : c ≠ []) (dst : List UInt8) (left : Nat) :
    (c.flatten.length < left → adts9 c dst left = if dst ++ c.flatten = [] then .ok none else .err) ∧
    (left ≤ c.flatten.length → ∃ c', c' ≠ [] ∧ c'.flatten = c.flatten.drop left ∧
      adts9 c dst left = .ok (some (dst ++ c.flatten.take left, 9, c'))) := by
  induction c generalizing dst left with
  | nil => exact absurd rfl hc
  | cons b bs ih =>
    rw [List.flatten_cons, List.length_append, adts9]
    by_cases hb : b.length < left
    · rw [if_pos hb]
      by_cases hbs : bs = []
      · subst hbs
        simp only [if_true, List.flatten_nil, List.append_nil, List.length_nil, Nat.add_zero]
        exact ⟨fun _ => by first | rfl | trivial, fun h => by omega⟩
      · rw [if_neg hbs]
        obtain ⟨h1, h2⟩ := ih hbs (dst ++ b) (left - b.length)
        refine ⟨fun h => ?_, fun h => ?_⟩
        · rw [h1 (by omega), List.append_assoc]
        · obtain ⟨c', e1, e2, e3⟩ := h2 (by omega)
          refine ⟨c', e1, ?_, ?_⟩
          · rw [e2, List.drop_append, List.drop_of_length_le (l := b) (by omega), List.nil_append]
          · rw [e3, List.take_append, List.take_of_length_le (l := b) (by omega), List.append_assoc]
    · rw [if_neg hb]
      refine ⟨fun h => by omega, fun _ => ⟨b.drop left :: bs, List.cons_ne_nil _ _, ?_, ?_⟩⟩
      · rw [List.flatten_cons, List.drop_append, show left - b.length = 0 by omega, List.drop_zero]
      · rw [List.take_append, show left - b.length = 0 by omega, List.take_zero, List.append_nil]

theorem byte_append (a b : List UInt8) (i : Nat) (h : i < a.length) : byte (a ++ b) i = byte a i := by
  simp only [byte, List.getD_eq_getElem?_getD, List.getElem?_append_left h]

theorem byte_take (a : List UInt8) (i n : Nat) (h : i < n) : byte (a.take n) i = byte a i := by
  simp only [byte, List.getD_eq_getElem?_getD, List.getElem?_take, if_pos h]

theorem adts7_flat (c : Chain) (hc : c ≠ []) (dst : List UInt8) (left : Nat) (hd : dst.length + left = 7) (hl : 0 < left) :
    (adts7 c dst left).map bytesLeft = flatHeader (dst ++ c.flatten) ∧
      ∀ h n c', adts7 c dst left = .ok (some (h, n, c')) → c' ≠ [] := by
  induction c generalizing dst left with
  | nil => exact absurd rfl hc
  | cons b bs ih =>
    rw [List.flatten_cons, adts7]
    by_cases hb : b.length < left
    · rw [if_pos hb]
      by_cases hbs : bs = []
      · subst hbs
        rw [if_pos rfl, List.flatten_nil, List.append_nil, flatHeader]
        by_cases he : dst ++ b = []
        · rw [if_pos he, if_pos he]
          exact ⟨rfl, fun _ _ _ h => by cases h⟩
        · rw [if_neg he, if_neg he, if_pos (by rw [List.length_append]; omega)]
          exact ⟨rfl, fun _ _ _ h => by cases h⟩
      · rw [if_neg hbs, ← List.append_assoc]
        exact ih hbs _ _ (by rw [List.length_append]; omega) (by omega)
    · rw [if_neg hb]
      have hne : dst ++ (b ++ bs.flatten) ≠ [] := by
        intro h
        have := congrArg List.length h
        simp only [List.length_append, List.length_nil] at this
        omega
      have hlen : ¬ (dst ++ (b ++ bs.flatten)).length < 7 := by
        simp only [List.length_append]
        omega
      rw [flatHeader, if_neg hne, if_neg hlen]
      have hcrc : ∀ (c' : Chain) (d : List UInt8) (k : Nat), c' ≠ [] → d ++ c'.flatten = dst ++ (b ++ bs.flatten) → d.length + k = 9 →
          (adts9 c' d k).map bytesLeft = (if (dst ++ (b ++ bs.flatten)).length < 9 then .err else
            .ok (some ((dst ++ (b ++ bs.flatten)).take 9, 9, (dst ++ (b ++ bs.flatten)).drop 9))) ∧
          ∀ h n c'', adts9 c' d k = .ok (some (h, n, c'')) → c'' ≠ [] := by
        intro c' d k hc' he hk
        obtain ⟨h1, h2⟩ := adts9_flat c' hc' d k
        have hl2 : (dst ++ (b ++ bs.flatten)).length = d.length + c'.flatten.length := by rw [← he, List.length_append]
        by_cases hs : c'.flatten.length < k
        · rw [h1 hs, he, if_neg hne, if_pos (by omega)]
          exact ⟨rfl, fun _ _ _ h => by cases h⟩
        · obtain ⟨c'', e1, e2, e3⟩ := h2 (by omega)
          rw [e3, if_neg (by omega)]
          refine ⟨?_, fun _ _ _ h => by cases h; exact e1⟩
          rw [Res.map_ok, bytesLeft, Option.map_some, ← he, List.take_append, List.drop_append, List.take_of_length_le (l := d) (by omega),
            List.drop_of_length_le (l := d) (by omega), show 9 - d.length = k by omega, e2]
          rfl
      by_cases hdst : dst = []
      · subst hdst
        rw [if_pos rfl]
        simp only [List.length_nil] at hd
        cases b with
        | nil => exact absurd (by simp; omega) hb
        | cons b0 b =>
          cases b with
          | nil => exact absurd (by simp; omega) hb
          | cons b1 b =>
            have hx : (b0 :: b1 :: b)[1]? = some b1 := rfl
            have hy : byte ([] ++ (b0 :: b1 :: b ++ bs.flatten)) 1 = b1.toNat := rfl
            rw [hx, hy]
            dsimp only
            by_cases hodd : b1.toNat % 2 = 0
            · simp only [if_pos hodd]
              exact hcrc ((b0 :: b1 :: b) :: bs) [] 9 (List.cons_ne_nil _ _) rfl rfl
            · simp only [if_neg hodd, hlen, if_false]
              have h7 : left = 7 := by omega
              subst h7
              refine ⟨?_, fun _ _ _ h => by cases h; exact List.cons_ne_nil _ _⟩
              rw [Res.map_ok, bytesLeft, Option.map_some, List.flatten_cons, List.nil_append, List.take_append, List.drop_append,
                show 7 - (b0 :: b1 :: b).length = 0 by omega, List.take_zero, List.append_nil, List.drop_zero]
      · rw [if_neg hdst]
        have hy : byte (dst ++ (b ++ bs.flatten)) 1 = byte (dst ++ b.take left) 1 := by
          have : dst ++ (b ++ bs.flatten) = (dst ++ b.take left) ++ (b.drop left ++ bs.flatten) := by
            rw [List.append_assoc, ← List.append_assoc (b.take left), List.take_append_drop]
          rw [this, byte_append _ _ _ (by rw [List.length_append, List.length_take]; omega)]
        rw [hy]
        by_cases hodd : byte (dst ++ b.take left) 1 % 2 = 0
        · simp only [if_pos hodd]
          refine hcrc (b.drop left :: bs) (dst ++ b.take left) 2 (List.cons_ne_nil _ _) ?_ ?_
          · rw [List.flatten_cons, List.append_assoc, ← List.append_assoc (b.take left), List.take_append_drop]
          · rw [List.length_append, List.length_take]; omega
        · simp only [if_neg hodd, hlen, if_false]
          refine ⟨?_, fun _ _ _ h => by cases h; exact List.cons_ne_nil _ _⟩
          rw [Res.map_ok, bytesLeft, Option.map_some, List.flatten_cons, List.take_append, List.drop_append,
            List.take_of_length_le (l := dst) (by omega), List.drop_of_length_le (l := dst) (by omega), List.take_append, List.drop_append,
            show 7 - dst.length = left by omega, show left - b.length = 0 by omega, List.take_zero, List.append_nil, List.drop_zero]
          rfl

theorem aacData_flat (c : Chain) (hc : c ≠ []) (left : Nat) :
    (c.flatten.length < left → aacData c left = .err) ∧
    (left ≤ c.flatten.length → ∃ c', c' ≠ [] ∧ c'.flatten = c.flatten.drop left ∧ aacData c left = .ok (c.flatten.take left, c')) := by
  induction c generalizing left with
  | nil => exact absurd rfl hc
  | cons b bs ih =>
    rw [List.flatten_cons, List.length_append, aacData]
    by_cases hb : b.length < left
    · rw [if_pos hb]
      by_cases hbs : bs = []
      · subst hbs
        simp only [if_true, List.flatten_nil, List.append_nil, List.length_nil, Nat.add_zero]
        exact ⟨fun _ => by first | rfl | trivial, fun h => by omega⟩
      · rw [if_neg hbs]
        obtain ⟨h1, h2⟩ := ih hbs (left - b.length)
        refine ⟨fun h => ?_, fun h => ?_⟩
        · rw [h1 (by omega)]
          rfl
        · obtain ⟨c', e1, e2, e3⟩ := h2 (by omega)
          refine ⟨c', e1, ?_, ?_⟩
          · rw [e2, List.drop_append, List.drop_of_length_le (l := b) (by omega), List.nil_append]
          · rw [e3, List.take_append, List.take_of_length_le (l := b) (by omega), Res.map_ok]
    · rw [if_neg hb]
      refine ⟨fun h => by omega, fun _ => ⟨b.drop left :: bs, List.cons_ne_nil _ _, ?_, ?_⟩⟩
      · rw [List.flatten_cons, List.drop_append, show left - b.length = 0 by omega, List.drop_zero]
      · rw [List.take_append, show left - b.length = 0 by omega, List.take_zero, List.append_nil]

/-- The loop over the frames of bytes. -/
def flatLoop (pts : Nat) : Nat → Nat → ATrack → List UInt8 → Res ATrack
  | 0, _, _, _ => .ub
  | fuel + 1, index, t, l =>
    flatHeader l >>= fun r =>
    match r with
    | none => .ok t
    | some (h, hlen, l) =>
      match aacUpdate t h with
      | none => .err
      | some t =>
        let t := t.sendInfo
        if adtsLen h < hlen then .err
        else if l.length < adtsLen h - hlen then .err
        else
          let k := t.clock.step (pts + 92160000 * index / t.info.rate : Nat)
          flatLoop pts fuel (index + 1) { t with clock := k, out := t.out ++ [.frame k.timestamp (l.take (adtsLen h - hlen))] }
            (l.drop (adtsLen h - hlen))

theorem loop_flat (pts fuel index : Nat) (t : ATrack) (c : Chain) (hc : c ≠ []) : aacLoop pts fuel index t c = flatLoop pts fuel index t c.flatten := by
  induction fuel generalizing index t c with
  | zero => rfl
  | succ fuel ih =>
    rw [aacLoop, flatLoop]
    obtain ⟨h1, h2⟩ := adts7_flat c hc [] 7 rfl (by omega)
    rw [List.nil_append] at h1
    rw [← h1]
    cases ha : adts7 c [] 7 with
    | err => rfl
    | ub => rfl
    | ok r =>
      cases r with
      | none => rfl
      | some r =>
        obtain ⟨h, n, c'⟩ := r
        have hc' := h2 h n c' ha
        rw [Res.map_ok, Res.bind_ok, Res.bind_ok, bytesLeft, Option.map_some]
        dsimp only
        cases aacUpdate t h with
        | none => rfl
        | some t =>
          dsimp only
          by_cases hl : adtsLen h < n
          · rw [if_pos hl, if_pos hl]
          · rw [if_neg hl, if_neg hl]
            obtain ⟨h3, h4⟩ := aacData_flat c' hc' (adtsLen h - n)
            by_cases hs : c'.flatten.length < adtsLen h - n
            · rw [h3 hs, if_pos hs]
              rfl
            · obtain ⟨c'', e1, e2, e3⟩ := h4 (by omega)
              rw [e3, if_neg hs, Res.bind_ok, ih _ _ _ e1, e2]

theorem flat_no_ub (pts fuel index : Nat) (t : ATrack) (l : List UInt8) (h : l.length < fuel) : flatLoop pts fuel index t l ≠ .ub := by
  induction fuel generalizing index t l with
  | zero => omega
  | succ fuel ih =>
    rw [flatLoop]
    cases hh : flatHeader l with
    | err => intro h; cases h
    | ub =>
      rw [flatHeader] at hh
      repeat' split at hh
      all_goals cases hh
    | ok r =>
      rw [Res.bind_ok]
      cases r with
      | none => intro h; cases h
      | some r =>
        obtain ⟨hd, n, l'⟩ := r
        dsimp only
        have hlen : l'.length < l.length := by
          rw [flatHeader] at hh
          repeat' split at hh
          all_goals cases hh
          all_goals rw [List.length_drop]; omega
        cases aacUpdate t hd with
        | none => intro h; cases h
        | some t =>
          dsimp only
          split
          · intro h; cases h
          · split
            · intro h; cases h
            · exact ih _ _ _ (by rw [List.length_drop]; omega)

/-- C80: what is written for a PES packet with audio depends on the bytes and not on the buffers they came in, and is defined when there is a
buffer. Missing: a PES packet without one, see TsKmpCases. -/
theorem audio_depends_on_the_bytes_partial (t : ATrack) (a b : Chain) (pts : Nat) (ha : a ≠ []) (hb : b ≠ []) (h : a.flatten = b.flatten) :
    aacPes t a pts = aacPes t b pts ∧ aacPes t a pts ≠ .ub := by
  rw [aacPes, aacPes, loop_flat _ _ _ _ _ ha, loop_flat _ _ _ _ _ hb, h]
  exact ⟨rfl, flat_no_ub _ _ _ _ _ (Nat.lt_succ_self _)⟩

end Verif.TsKmp
