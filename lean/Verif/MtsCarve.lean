import Verif.MtsFrame
import Verif.TsSpec

/-! # The packets of a frame are packets of a transport stream -/

namespace Verif.Mts

open TsSpec (Packet Pes be16)

/-- The adaptation field filled up by `n` bytes. -/
def padField (n : Nat) : Option (List UInt8) → Option (List UInt8)
  | none => some (if 2 ≤ n then 0 :: List.replicate (n - 2) 0xff else [])
  | some a => some (a ++ List.replicate n 0xff)

def fieldLen : Option (List UInt8) → Nat
  | none => 0
  | some a => 1 + a.length

/-- The packets of `t`. -/
def carve (pid cc : Nat) (start : Bool) (adapt : Option (List UInt8)) (t : List UInt8) : List Packet :=
  let room := 184 - fieldLen adapt
  if t.length < room then [{ pid := pid, start := start, cont := cc % 16, adapt := padField (room - t.length) adapt, payload := t }]
  else if t.length = room then [{ pid := pid, start := start, cont := cc % 16, adapt := adapt, payload := t }]
  else { pid := pid, start := start, cont := cc % 16, adapt := adapt, payload := t.take room } :: carve pid (cc + 1) false none (t.drop room)
termination_by (t.length, fieldLen adapt)
decreasing_by
  simp only [List.length_drop, fieldLen] at *
  simp_wf
  by_cases h : fieldLen adapt < 184
  · left; unfold fieldLen at h; omega
  · rw [Prod.lex_def]; right; unfold fieldLen at h; split at h <;> simp at * <;> omega

/-- The bytes of a packet before the payload. -/
def headOf (pid cc : Nat) (start : Bool) (adapt : Option (List UInt8)) : List UInt8 :=
  [0x47, UInt8.ofNat ((if start then 64 else 0) + pid / 256), UInt8.ofNat (pid % 256),
    UInt8.ofNat ((if adapt.isSome then 32 else 0) + 16 + cc % 16)] ++ (match adapt with | none => [] | some a => UInt8.ofNat a.length :: a)

theorem headOf_length (pid cc : Nat) (start : Bool) (adapt : Option (List UInt8)) :
    (headOf pid cc start adapt).length = 4 + fieldLen adapt := by
  cases adapt <;> simp [headOf, fieldLen] <;> omega

theorem bytes_headOf (pid cc : Nat) (start : Bool) (adapt : Option (List UInt8)) (t : List UInt8) (ht : t ≠ []) :
    ({ pid := pid, start := start, cont := cc % 16, adapt := adapt, payload := t } : Packet).bytes = headOf pid cc start adapt ++ t := by
  cases adapt <;> simp [Packet.bytes, Packet.field, headOf, ht]

theorem ofNat_byte (n : Nat) : UInt8.ofNat (n % 256) = UInt8.ofNat n := by
  apply UInt8.toNat_inj.mp
  simp [UInt8.toNat_ofNat']

theorem packetHeader_headOf (pid cc : Nat) : packetHeader pid cc = headOf pid cc false none := by
  simp [packetHeader, headOf, ofNat_byte]

theorem flag_set (k : Nat) (h : k < 16) : UInt8.ofNat (16 + k) ||| 0x20 = UInt8.ofNat (32 + 16 + k) := by
  have : ∀ k : Fin 16, UInt8.ofNat (16 + k.val) ||| 0x20 = UInt8.ofNat (32 + 16 + k.val) := by decide
  exact this ⟨k, h⟩

theorem flag_not (k : Nat) (h : k < 16) : UInt8.ofNat (0 + 16 + k) &&& 0x20 = 0 := by
  have : ∀ k : Fin 16, UInt8.ofNat (0 + 16 + k.val) &&& 0x20 = 0 := by decide
  exact this ⟨k, h⟩

theorem flag_is (k : Nat) (h : k < 16) : UInt8.ofNat (32 + 16 + k) &&& 0x20 ≠ 0 := by
  have : ∀ k : Fin 16, UInt8.ofNat (32 + 16 + k.val) &&& 0x20 ≠ 0 := by decide
  exact this ⟨k, h⟩

theorem start_set (k : Nat) (h : k < 32) : UInt8.ofNat k ||| 0x40 = UInt8.ofNat (64 + k) := by
  have : ∀ k : Fin 32, UInt8.ofNat k.val ||| 0x40 = UInt8.ofNat (64 + k.val) := by decide
  exact this ⟨k, h⟩

/-- Stuffing. -/
theorem stuffing_headOf (pid cc : Nat) (start : Bool) (adapt : Option (List UInt8)) (t : List UInt8) (ha : fieldLen adapt ≤ 184) (n : Nat) (hn : 0 < n) :
    addStuffing (headOf pid cc start adapt ++ t) n = headOf pid cc start (padField n adapt) ++ t := by
  have hcc : cc % 16 < 16 := Nat.mod_lt _ (by decide)
  cases adapt with
  | none =>
    have h3 : (headOf pid cc start none ++ t).getD 3 0 = UInt8.ofNat (0 + 16 + cc % 16) := rfl
    unfold addStuffing
    rw [h3, if_neg (by simp only [ne_eq, Decidable.not_not]; exact flag_not _ hcc)]
    have hf := flag_set _ hcc
    have hlen : (if 2 ≤ n then (0 : UInt8) :: List.replicate (n - 2) 0xff else []).length = n - 1 := by
      split
      · simp; omega
      · simp; omega
    simp only [padField, headOf, Option.isSome_some, if_true, hlen]
    simp [List.modify, List.modifyTailIdx, List.modifyTailIdx.go]
    simpa using hf
  | some a =>
    simp only [fieldLen] at ha
    have h3 : (headOf pid cc start (some a) ++ t).getD 3 0 = UInt8.ofNat (32 + 16 + cc % 16) := rfl
    have h4 : (headOf pid cc start (some a) ++ t).getD 4 0 = UInt8.ofNat a.length := rfl
    have hal : (UInt8.ofNat a.length).toNat = a.length := by rw [UInt8.toNat_ofNat']; omega
    unfold addStuffing
    rw [h3, if_pos (flag_is _ hcc), h4, hal]
    have hlen : (headOf pid cc start (some a)).length = 5 + a.length := by rw [headOf_length]; simp only [fieldLen]; omega
    simp only
    rw [List.take_append_of_le_length (by omega), List.take_of_length_le (by omega), List.drop_append_of_le_length (by omega),
      List.drop_of_length_le (by omega)]
    simp [headOf, padField, List.modify, List.modifyTailIdx, List.modifyTailIdx.go]

theorem lastOf_single (x : List UInt8) : lastOf [x] = x := rfl
theorem initOf_single (x : List UInt8) : initOf [x] = [] := rfl

/-- The layout is `carve`. -/
theorem lay_carve (pid cc : Nat) (start : Bool) (adapt : Option (List UInt8)) (t : List UInt8) (ha : fieldLen adapt < 184) (ht : t ≠ []) :
    initOf (lay pid (cc + 1) (headOf pid cc start adapt) t) ++ [fillUp (lastOf (lay pid (cc + 1) (headOf pid cc start adapt) t))] =
      (carve pid cc start adapt t).map Packet.bytes := by
  have hh := headOf_length pid cc start adapt
  rw [carve]
  by_cases h1 : t.length < 184 - fieldLen adapt
  · rw [if_pos h1, lay_fits (by omega), lastOf_single, initOf_single, fillUp, if_pos (by rw [List.length_append]; omega),
      stuffing_headOf _ _ _ _ _ (by omega) _ (by rw [List.length_append]; omega), List.map_cons, List.map_nil, bytes_headOf _ _ _ _ _ ht,
      List.length_append, hh, show 188 - (4 + fieldLen adapt + t.length) = 184 - fieldLen adapt - t.length by omega]
    rfl
  · rw [if_neg h1]
    by_cases h2 : t.length = 184 - fieldLen adapt
    · rw [if_pos h2, lay_fits (by omega), lastOf_single, initOf_single, fillUp, if_neg (by rw [List.length_append]; omega), List.map_cons,
        List.map_nil, bytes_headOf _ _ _ _ _ ht]
      rfl
    · have h3 : 188 - (headOf pid cc start adapt).length = 184 - fieldLen adapt := by omega
      rw [if_neg h2, lay_over (by omega), initOf_cons _ (lay_ne _ _ _ _), lastOf_cons _ (lay_ne _ _ _ _), packetHeader_headOf, h3,
        List.cons_append,
        lay_carve pid (cc + 1) false none (t.drop (184 - fieldLen adapt)) (by simp [fieldLen])
          (List.ne_nil_of_length_pos (by rw [List.length_drop]; omega)),
        List.map_cons, bytes_headOf _ _ _ _ _ (List.ne_nil_of_length_pos (by rw [List.length_take]; omega))]
termination_by t.length
decreasing_by rw [List.length_drop]; omega

/-! ## What the packets are -/

theorem padField_len (n : Nat) (a : Option (List UInt8)) (hn : 0 < n) : fieldLen (padField n a) = fieldLen a + n := by
  cases a with
  | none => simp only [padField, fieldLen]; split <;> simp <;> omega
  | some a => simp only [padField, fieldLen, List.length_append, List.length_replicate]; omega

/-- Adaptation fields that have a whole PCR if they have one. -/
def FieldOk (a : Option (List UInt8)) : Prop := ∀ f t, a = some (f :: t) → f.toNat / 16 % 2 = 1 → 6 ≤ t.length

theorem padField_ok (n : Nat) (a : Option (List UInt8)) (h : FieldOk a) (hne : a ≠ some []) : FieldOk (padField n a) := by
  intro f t h1 h2
  cases a with
  | none =>
    simp only [padField] at h1
    split at h1
    · simp only [Option.some.injEq, List.cons.injEq] at h1
      rw [← h1.1] at h2; simp at h2
    · simp at h1
  | some a =>
    cases a with
    | nil => exact absurd rfl hne
    | cons g s =>
      simp only [padField, List.cons_append, Option.some.injEq, List.cons.injEq] at h1
      rw [← h1.1] at h2
      have := h g s rfl h2
      rw [← h1.2]; simp; omega

theorem carve_ok (pid cc : Nat) (start : Bool) (adapt : Option (List UInt8)) (t : List UInt8) (hp : pid < 8192) (ha : fieldLen adapt < 184)
    (hf : FieldOk adapt) (hne : adapt ≠ some []) (ht : t ≠ []) :
    ∀ q ∈ carve pid cc start adapt t, q.Ok ∧ q.pid = pid ∧ q.payload ≠ [] := by
  have hcc : cc % 16 < 16 := Nat.mod_lt _ (by decide)
  have hlen : ∀ (a : Option (List UInt8)) (x : List UInt8), x ≠ [] → 4 + fieldLen a + x.length = 188 →
      ({ pid := pid, start := start, cont := cc % 16, adapt := a, payload := x } : Packet).bytes.length = 188 := by
    intro a x hx h
    rw [bytes_headOf _ _ _ _ _ hx, List.length_append, headOf_length, h]
  rw [carve]
  by_cases h1 : t.length < 184 - fieldLen adapt
  · rw [if_pos h1]
    intro q hq
    rw [List.mem_singleton] at hq
    subst hq
    exact ⟨⟨hp, hcc, hlen _ _ ht (by rw [padField_len _ _ (by omega)]; omega), padField_ok _ _ hf hne⟩, rfl, ht⟩
  · rw [if_neg h1]
    by_cases h2 : t.length = 184 - fieldLen adapt
    · rw [if_pos h2]
      intro q hq
      rw [List.mem_singleton] at hq
      subst hq
      exact ⟨⟨hp, hcc, hlen _ _ ht (by omega), hf⟩, rfl, ht⟩
    · rw [if_neg h2]
      intro q hq
      rw [List.mem_cons] at hq
      rcases hq with hq | hq
      · subst hq
        have hx : t.take (184 - fieldLen adapt) ≠ [] := List.ne_nil_of_length_pos (by rw [List.length_take]; omega)
        exact ⟨⟨hp, hcc, hlen _ _ hx (by rw [List.length_take]; omega), hf⟩, rfl, hx⟩
      · exact carve_ok pid (cc + 1) false none _ hp (by simp [fieldLen]) (by intro f t h; cases h) (by simp)
          (List.ne_nil_of_length_pos (by rw [List.length_drop]; omega)) q hq
termination_by t.length
decreasing_by rw [List.length_drop]; omega

theorem carve_payload (pid cc : Nat) (start : Bool) (adapt : Option (List UInt8)) (t : List UInt8) (_ha : fieldLen adapt < 184) :
    ((carve pid cc start adapt t).map Packet.payload).flatten = t := by
  rw [carve]
  by_cases h1 : t.length < 184 - fieldLen adapt
  · rw [if_pos h1]; simp
  · rw [if_neg h1]
    by_cases h2 : t.length = 184 - fieldLen adapt
    · rw [if_pos h2]; simp
    · rw [if_neg h2, List.map_cons, List.flatten_cons, carve_payload pid (cc + 1) false none _ (by simp [fieldLen])]
      exact List.take_append_drop _ _
termination_by t.length
decreasing_by rw [List.length_drop]; omega

theorem carve_counted (pid cc : Nat) (start : Bool) (adapt : Option (List UInt8)) (t : List UInt8) (_ha : fieldLen adapt < 184) :
    TsSpec.Counted (cc % 16) (carve pid cc start adapt t) := by
  rw [carve]
  by_cases h1 : t.length < 184 - fieldLen adapt
  · rw [if_pos h1]; exact ⟨rfl, trivial⟩
  · rw [if_neg h1]
    by_cases h2 : t.length = 184 - fieldLen adapt
    · rw [if_pos h2]; exact ⟨rfl, trivial⟩
    · rw [if_neg h2]
      refine ⟨rfl, ?_⟩
      have := carve_counted pid (cc + 1) false none (t.drop (184 - fieldLen adapt)) (by simp [fieldLen])
      rwa [show (cc % 16 + 1) % 16 = (cc + 1) % 16 by omega]
termination_by t.length
decreasing_by rw [List.length_drop]; omega

theorem carve_later (pid cc : Nat) (t : List UInt8) : ∀ q ∈ carve pid cc false none t, q.start = false := by
  rw [carve]
  by_cases h1 : t.length < 184 - fieldLen none
  · rw [if_pos h1]; simp
  · rw [if_neg h1]
    by_cases h2 : t.length = 184 - fieldLen none
    · rw [if_pos h2]; simp
    · rw [if_neg h2]
      intro q hq
      rw [List.mem_cons] at hq
      rcases hq with hq | hq
      · subst hq; rfl
      · exact carve_later pid (cc + 1) _ q hq
termination_by t.length
decreasing_by rw [List.length_drop]; simp only [fieldLen] at *; omega

/-- The first packet: its adaptation field begins with that given. -/
theorem carve_first (pid cc : Nat) (start : Bool) (adapt : Option (List UInt8)) (t : List UInt8) :
    ∃ q r, carve pid cc start adapt t = q :: r ∧ q.start = start ∧ (∀ x ∈ r, x.start = false) ∧
      (∀ a, adapt = some a → ∃ n, q.adapt = some (a ++ List.replicate n 0xff)) := by
  rw [carve]
  by_cases h1 : t.length < 184 - fieldLen adapt
  · rw [if_pos h1]
    refine ⟨_, _, rfl, rfl, by simp, ?_⟩
    rintro a rfl
    exact ⟨_, rfl⟩
  · rw [if_neg h1]
    by_cases h2 : t.length = 184 - fieldLen adapt
    · rw [if_pos h2]
      refine ⟨_, _, rfl, rfl, by simp, ?_⟩
      rintro a rfl
      exact ⟨0, by simp⟩
    · rw [if_neg h2]
      refine ⟨_, _, rfl, rfl, carve_later _ _ _, ?_⟩
      rintro a rfl
      exact ⟨0, by simp⟩

theorem carve_length (pid cc : Nat) (start : Bool) (adapt : Option (List UInt8)) (t : List UInt8) (ha : fieldLen adapt < 184) (ht : t ≠ []) :
    (carve pid cc start adapt t).length = (fieldLen adapt + t.length + 183) / 184 := by
  have := List.length_pos_iff.mpr ht
  rw [carve]
  by_cases h1 : t.length < 184 - fieldLen adapt
  · rw [if_pos h1]; simp only [List.length_singleton]; omega
  · rw [if_neg h1]
    by_cases h2 : t.length = 184 - fieldLen adapt
    · rw [if_pos h2]; simp only [List.length_singleton]; omega
    · rw [if_neg h2, List.length_cons, carve_length pid (cc + 1) false none _ (by simp [fieldLen])
        (List.ne_nil_of_length_pos (by rw [List.length_drop]; omega)), List.length_drop]
      rw [show fieldLen none = 0 from rfl]; omega
termination_by t.length
decreasing_by rw [List.length_drop]; omega

end Verif.Mts
