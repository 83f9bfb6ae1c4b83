import Verif.AmfRead

/-!
# C68, C69, C70: AMF messages are read safely and as they were sent, and how deep
-/

namespace Verif.Amf

open Verif.AmfSpec (Value Fields Values marker enc u16 takeItems Plain)

/-! ## C68 -/

/-- What a caller sees of a read: the rest of the message is the bytes of it. -/
def seen : Out Ctx → Out Bytes
  | .ok c m => .ok c.rest m
  | .stop c m => .stop c.rest m
  | .err m => .err m
  | .ub => .ub
  | .deep => .deep

theorem seen_of_rel {o : Out Ctx} {p : Out Bytes} (h : OutRel At o p) : seen o = p := by
  cases o <;> cases p <;> simp_all [OutRel, seen, At]

theorem receive_flat (d : Nat) (es : List Elt) (inp : List Bytes) (m : Mem) : seen (receive d es inp m) = read flat d es inp.flatten m :=
  seen_of_rel (read_rel chain_flat d es m (at_start inp))

/-- **C68, buffering.** Two messages with the same bytes are read the same way, however they are split into buffers: the same outcome, the same
values, the same rest. -/
theorem reading_does_not_depend_on_the_buffers (d : Nat) (es : List Elt) (inp inp' : List Bytes) (m : Mem) (h : inp.flatten = inp'.flatten) :
    seen (receive d es inp m) = seen (receive d es inp' m) := by
  rw [receive_flat, receive_flat, h]

/-- **C68, safety.** Whatever the bytes are, a read into destinations that are large enough never writes outside of them, and what is left is at
most what there was. -/
theorem reading_is_safe (d : Nat) (es : List Elt) (inp : List Bytes) (m : Mem) (hes : ∀ e ∈ es, Fit m e) :
    match seen (receive d es inp m) with
    | .ok rest m' => rest.length ≤ inp.flatten.length ∧ ∀ a, (m' a).length = (m a).length
    | .err m' => ∀ a, (m' a).length = (m a).length
    | .deep => d ≤ inp.flatten.length
    | .stop rest m' => rest.length ≤ inp.flatten.length ∧ ∀ a, (m' a).length = (m a).length
    | .ub => False := by
  rw [receive_flat]
  have h := read_good d es inp.flatten m hes
  cases hr : read flat d es inp.flatten m with
  | ok s m' => rw [hr] at h; exact h
  | stop s m' => rw [hr] at h; exact h
  | err m' => rw [hr] at h; exact h
  | ub => rw [hr] at h; exact h
  | deep => rw [hr] at h; exact h

/-! ## C69 -/

/-- The values on the wire, one after the other. -/
def wire (vs : List Value) : Bytes := (vs.map enc).flatten

theorem loop_takes {D : Nat} : ∀ (es : List Elt) (vs : List Value) (tail : Bytes) (m : Mem), (∀ v ∈ vs, v.Ok ∧ 2 * v.depth + 1 ≤ D) →
    (∀ e ∈ es, Fit m e) → (∀ e ∈ es, Plain e) → vs.length ≤ es.length →
    (vs.length = es.length ∨ (tail = [] ∧ ∃ e, es[vs.length]? = some e ∧ e.typeless = false ∧ e.opt = true)) →
    loop flat (one flat D) es (wire vs ++ tail) m = .ok tail (takeItems es (Values.ofList vs) m) := by
  intro es
  induction es with
  | nil =>
    intro vs tail m _ _ _ hl _
    have : vs = [] := List.length_eq_zero_iff.mp (by simpa using hl)
    subst this
    rfl
  | cons e es ih =>
    intro vs tail m hv hf hp hl hlast
    cases vs with
    | nil =>
      rcases hlast with h | ⟨rfl, e', h1, h2, h3⟩
      · simp at h
      simp only [List.length_nil, List.getElem?_cons_zero, Option.some.injEq] at h1
      subst h1
      simp [loop, wire, step, h2, flat, h3, takeItems, Values.ofList]
    | cons v vs =>
      have hfe : ∀ x, some e = some x → Fit m x := fun x hx => by cases hx; exact hf e (by simp)
      have hpe : ∀ x, some e = some x → Plain x := fun x hx => by cases hx; exact hp e (by simp)
      have hv0 := hv v (by simp)
      simp only [loop]
      rw [show wire (v :: vs) ++ tail = enc v ++ (wire vs ++ tail) by simp [wire]]
      rw [step_takes (takes v hv0.1) (some e) D _ m hv0.2 hfe hpe]
      simp only []
      have hs := after_sized (takes v hv0.1) (some e) m hfe hpe
      rw [ih vs tail _ (fun v hv' => hv v (by simp [hv'])) (fun x hx => (hf x (by simp [hx])).sized hs) (fun x hx => hp x (by simp [hx]))
        (by simpa using hl)]
      · rfl
      · rcases hlast with h | ⟨h0, e', h1, h2⟩
        · exact .inl (by simpa using h)
        · exact .inr ⟨h0, e', by simpa using h1, h2⟩

/-- **C69.** A message is the values `vs`, then `tail`. A receiver that has an element for each of them gets from every value what its template
asks for, nothing else changes, and what follows is still there. The message may also end early, before an element that is optional. The stack
has to have room for twice the nesting of the values. -/
theorem values_are_read_as_they_were_sent (d : Nat) (es : List Elt) (inp : List Bytes) (vs : List Value) (tail : Bytes) (m : Mem)
    (hin : inp.flatten = wire vs ++ tail) (hv : ∀ v ∈ vs, v.Ok ∧ 2 * v.depth + 2 ≤ d) (hd : 0 < d)
    (hf : ∀ e ∈ es, Fit m e) (hp : ∀ e ∈ es, Plain e) (hl : vs.length ≤ es.length)
    (hlast : vs.length = es.length ∨ (tail = [] ∧ ∃ e, es[vs.length]? = some e ∧ e.typeless = false ∧ e.opt = true)) :
    seen (receive d es inp m) = .ok tail (takeItems es (Values.ofList vs) m) := by
  rw [receive_flat, hin]
  obtain ⟨d, rfl⟩ : ∃ d', d = d' + 1 := ⟨d - 1, by omega⟩
  exact loop_takes es vs tail m (fun v h => ⟨(hv v h).1, by have := (hv v h).2; omega⟩) hf hp hl hlast

/-! ## C70 -/

/-- `n` objects, each in the first field of the one before, not ended. -/
def nested : Nat → Bytes
  | 0 => []
  | n + 1 => [3, 0, 1, 97] ++ nested n

theorem nested_length (n : Nat) : (nested n).length = 4 * n := by
  induction n with
  | zero => rfl
  | succ n ih => simp only [nested, List.length_append, ih, List.length_cons, List.length_nil]; omega

theorem object_nested (d n : Nat) (len : Nat) (m : Mem) (ih : one flat d none (nested n) m = .deep) :
    value flat (one flat d) 3 none [] len ([0, 1, 97] ++ nested n) m = .deep := by
  have h0 : value flat (one flat d) 3 none [] len ([0, 1, 97] ++ nested n) m =
      objLoop flat (one flat d) [] (([0, 1, 97] ++ nested n).length + 1) ([0, 1, 97] ++ nested n) m := by
    simp [value, object, tNumber, tBoolean, tString, tNull, tArrayNull, tMixed, tObject, flat]
  rw [h0]
  simp only [objLoop]
  rw [show ([0, 1, 97] ++ nested n : Bytes) = [0, 1] ++ ([97] ++ nested n) from rfl, get_app (n := 2) _ _ rfl]
  simp only [show be16 [0, 1] = 1 from rfl, Nat.one_ne_zero, if_false]
  obtain ⟨y, hy, _⟩ := readName_reads (maxLen []) [97] (nested n)
  rw [show readName flat (maxLen []) 1 ([97] ++ nested n) = _ from hy]
  simp only [show findName 1 y [] = none from rfl, ih]

theorem one_nested (m : Mem) : ∀ d n, d ≤ n → one flat d none (nested n) m = .deep := by
  intro d
  induction d with
  | zero => intro n _; rfl
  | succ d ih =>
    intro n hn
    obtain ⟨n, rfl⟩ : ∃ k, n = k + 1 := ⟨n - 1, by omega⟩
    have hg : flat.get (nested (n + 1)) 1 = ([3], some ([0, 1, 97] ++ nested n)) := get_app (n := 1) [3] _ rfl
    simp only [one, step, hg]
    exact object_nested d n 0 m (ih n (by omega))

/-- **C70, the negation.** No number of nested calls is enough for all messages: with room for `d` calls, a message of `4 * d` bytes needs more,
for every template that starts with an element that is neither an object nor a mixed array. -/
theorem reading_depth_is_not_bounded (d : Nat) (e : Elt) (es : List Elt) (inp : List Bytes) (m : Mem) (he : e.typeless = false)
    (hb : e.base % 256 ≠ 3 ∧ e.base % 256 ≠ 8) (hin : inp.flatten = nested d) :
    inp.flatten.length = 4 * d ∧ seen (receive d (e :: es) inp m) = .deep := by
  refine ⟨by rw [hin, nested_length], ?_⟩
  rw [receive_flat, hin]
  cases d with
  | zero => rfl
  | succ d =>
    have hg : flat.get (nested (d + 1)) 1 = ([3], some ([0, 1, 97] ++ nested d)) := get_app (n := 1) [3] _ rfl
    have hc : compat (e.base % 256) (byteOf [3]) = false := by
      cases h : compat (e.base % 256) (byteOf [3]) with
      | false => rfl
      | true =>
        rw [compat_agrees] at h
        simp [AmfSpec.agrees, byteOf, hb.1, hb.2] at h
    have hs : step flat (one flat d) (some e) (nested (d + 1)) m = .deep := by
      simp only [step, he, hg, hc, Bool.false_eq_true, if_false]
      exact object_nested d d e.len m (one_nested m d d (Nat.le_refl d))
    simp only [read, loop, hs]

/-- **C70, in part.** A stack with room for more calls than the message has bytes is enough. -/
theorem reading_depth_is_below_the_length_partial (d : Nat) (es : List Elt) (inp : List Bytes) (m : Mem) (hes : ∀ e ∈ es, Fit m e)
    (hd : inp.flatten.length < d) : seen (receive d es inp m) ≠ .deep := by
  intro h
  have := reading_is_safe d es inp m hes
  rw [h] at this
  simp only at this
  omega

end Verif.Amf
