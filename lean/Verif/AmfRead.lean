import Verif.AmfSpec
import Verif.AmfSafe

/-!
# AMF0: values are read as they were sent
-/

namespace Verif.Amf

open Verif.AmfSpec (Value Fields Values marker enc u16 u32 place placep agrees wanted Plain)

theorem be16_u16 {n : Nat} (h : n < 65536) : be16 (u16 n) = n := by
  simp only [u16, be16, UInt8.toNat_ofNat']
  omega

theorem be32_u32 {n : Nat} (h : n < 2 ^ 32) : be32 (u32 n) = n := by
  simp only [u32, be32, UInt8.toNat_ofNat']
  omega

theorem get_app (x y : Bytes) {n : Nat} (h : x.length = n) : flat.get (x ++ y) n = (x, some y) := by
  subst h
  simp [flat]

theorem wr_place {m : Mem} {a : Nat} {bs : Bytes} (h : bs.length ≤ (m a).length) : wr m a 0 bs = some (place m a bs) := by
  unfold wr
  rw [if_pos (by omega)]
  congr 1
  funext i
  simp [place]

theorem wrp_placep {m : Mem} {p : Option Nat} {bs : Bytes} (h : ∀ a, p = some a → bs.length ≤ (m a).length) : wrp m p 0 bs = some (placep m p bs) := by
  cases p with
  | none => rfl
  | some a => exact wr_place (h a rfl)

theorem wr_more {m : Mem} {a : Nat} {x y : Bytes} (h : x.length + y.length ≤ (m a).length) : wr (place m a x) a x.length y = some (place m a (x ++ y)) := by
  unfold wr
  rw [if_pos (by simp [place]; omega)]
  congr 1
  funext i
  simp only [place]
  split
  · simp only [if_true, List.length_append, List.take_left', List.append_assoc, List.drop_append, List.drop_drop]
    rw [List.drop_of_length_le (l := x) (by omega)]
    simp
  · rfl

theorem string_reads {m : Mem} {p : Option Nat} {k : Nat} (x tail : Bytes) (hx : x.length < 65536)
    (hp : ∀ a, p = some a → k ≤ (m a).length ∧ 0 < k) :
    string flat p k (u16 x.length ++ x ++ tail) m = .ok tail (placep m p (x.take (k - 1) ++ [0])) := by
  unfold string
  rw [List.append_assoc, get_app _ _ (by rfl)]
  simp only [be16_u16 hx]
  cases p with
  | none =>
    simp only [fetch, get_app x tail rfl]
    rfl
  | some a =>
    obtain ⟨hk, hk0⟩ := hp a rfl
    simp only []
    by_cases h : k ≤ x.length
    · rw [if_pos h, if_neg (by omega)]
      have e1 : x ++ tail = x.take (k - 1) ++ (x.drop (k - 1) ++ tail) := by
        rw [← List.append_assoc, List.take_append_drop]
      have hl : (x.take (k - 1)).length = k - 1 := by rw [List.length_take]; omega
      rw [e1]
      simp only [fetch, get_app _ _ hl]
      rw [show wrp m (some a) 0 (x.take (k - 1)) = some (place m a (x.take (k - 1))) from wr_place (by omega)]
      simp only []
      have h2 := wr_more (m := m) (a := a) (x := x.take (k - 1)) (y := [0]) (by rw [hl]; simp; omega)
      rw [hl] at h2
      rw [h2]
      simp only []
      rw [get_app _ _ (by rw [List.length_drop]; omega)]
      rfl
    · rw [if_neg h, get_app x tail rfl]
      simp only []
      rw [wr_place (by omega)]
      simp only []
      rw [wr_more (by simp; omega)]
      simp only []
      rw [List.take_of_length_le (by omega)]
      rfl

theorem same_iff : ∀ (a b : Bytes), a.length = b.length → 0 ∉ b → (same a b = true ↔ a = b) := by
  intro a
  induction a with
  | nil =>
    intro b h _
    cases b with
    | nil => simp [same]
    | cons x xs => simp at h
  | cons x xs ih =>
    intro b h h0
    cases b with
    | nil => simp at h
    | cons y ys =>
      simp only [List.length_cons, Nat.add_right_cancel_iff] at h
      simp only [List.mem_cons, not_or] at h0
      have := ih ys h h0.2
      simp only [same, Bool.and_eq_true, beq_iff_eq, Bool.or_eq_true, List.cons.injEq]
      rw [this]
      refine ⟨fun ⟨h1, h2⟩ => ⟨h1, ?_⟩, fun ⟨h1, h2⟩ => ⟨h1, .inr h2⟩⟩
      rcases h2 with h2 | h2
      · exact absurd (h1 ▸ h2) (fun hh => h0.1 hh.symm)
      · exact h2

theorem le_maxLen (es : List Elt) : ∀ e ∈ es, e.name.length ≤ maxLen es := by
  have key : ∀ (es : List Elt) k, k ≤ es.foldl (fun k e => max k e.name.length) k ∧
      ∀ e ∈ es, e.name.length ≤ es.foldl (fun k e => max k e.name.length) k := by
    intro es
    induction es with
    | nil => intro k; simp
    | cons x xs ih =>
      intro k
      simp only [List.foldl_cons, List.mem_cons]
      refine ⟨Nat.le_trans (Nat.le_max_left _ _) (ih _).1, ?_⟩
      rintro e (rfl | he)
      · exact Nat.le_trans (Nat.le_max_right _ _) (ih _).1
      · exact (ih _).2 e he
  exact (key es 0).2

theorem readName_reads (k : Nat) (x tail : Bytes) : ∃ y, readName flat k x.length (x ++ tail) = some (y, tail) ∧ (x.length ≤ k → y = x) := by
  unfold readName
  by_cases h : x.length ≤ k
  · rw [if_pos h, get_app x tail rfl]
    exact ⟨x, rfl, fun _ => rfl⟩
  · rw [if_neg h]
    have e1 : x ++ tail = x.take k ++ (x.drop k ++ tail) := by rw [← List.append_assoc, List.take_append_drop]
    rw [e1, get_app _ _ (by rw [List.length_take]; omega)]
    simp only []
    rw [get_app _ _ (by rw [List.length_drop])]
    exact ⟨_, rfl, fun hh => absurd hh h⟩

theorem _root_.Verif.AmfSpec.Plain.nul {e : Elt} (h : Plain e) : 0 ∉ e.name := by
  cases h with
  | field base opt name mem sub len h1 h2 h3 => exact h2
  | variant name sub len h1 h2 h3 => exact h1

theorem _root_.Verif.AmfSpec.Plain.inv {e : Elt} (h : Plain e) : (∀ x ∈ e.sub, Plain x) ∧ ((e.typeless = false ∧ e.base < 256) ∨
    (e.base = 0x103 ∧ e.typeless = true ∧ e.opt = false ∧ ∀ x ∈ e.sub, x.typeless = false ∧ x.opt = false)) := by
  cases h with
  | field base opt name mem sub len h1 h2 h3 => exact ⟨h3, .inl ⟨rfl, h1⟩⟩
  | variant name sub len h1 h2 h3 => exact ⟨h3, .inr ⟨rfl, rfl, rfl, h2⟩⟩

theorem findName_find {es : List Elt} (hes : ∀ e ∈ es, Plain e) {x y : Bytes} (hy : x.length ≤ maxLen es → y = x) :
    findName x.length y es = es.find? fun e => e.name == x := by
  unfold findName
  have key : ∀ l : List Elt, (∀ e ∈ l, e ∈ es) → (l.find? fun e => x.length == e.name.length && same y e.name) = l.find? fun e => e.name == x := by
    intro l
    induction l with
    | nil => intro _; rfl
    | cons e l ih =>
      intro hl
      have he : (x.length == e.name.length && same y e.name) = (e.name == x) := by
        rw [Bool.eq_iff_iff]
        simp only [Bool.and_eq_true, beq_iff_eq]
        constructor
        · rintro ⟨h1, h2⟩
          have hm := le_maxLen es e (hl e (by simp))
          rw [hy (by omega)] at h2
          exact ((same_iff x e.name h1 (hes e (hl e (by simp))).nul).1 h2).symm
        · intro h
          have hm := le_maxLen es e (hl e (by simp))
          rw [h] at hm
          refine ⟨by rw [h], ?_⟩
          rw [hy hm]
          exact (same_iff x e.name (by rw [h]) (hes e (hl e (by simp))).nul).2 h.symm
      simp only [List.find?_cons, he]
      rw [ih (fun e he => hl e (by simp [he]))]
  exact key es (fun _ h => h)

theorem marker_lt (v : Value) : marker v < 256 := by cases v <;> simp [marker]

theorem byteOf_marker (v : Value) (l : Bytes) : byteOf (UInt8.ofNat (marker v) :: l) = marker v := by
  show (UInt8.ofNat (marker v)).toNat = _
  rw [UInt8.toNat_ofNat']
  exact Nat.mod_eq_of_lt (marker_lt v)

theorem compat_agrees (a b : Nat) : compat a b = agrees a b := by
  unfold compat agrees tObject tMixed
  rw [Bool.eq_iff_iff]
  simp only [Bool.or_eq_true, Bool.and_eq_true, beq_iff_eq]
  omega

/-- What is shown for a value: the switch takes it. -/
def Takes (v : Value) : Prop :=
  ∀ (d : Nat) (p : Option Nat) (sub : List Elt) (len : Nat) (tail : Bytes) (m : Mem), 2 * v.depth ≤ d →
    (∀ a, p = some a → room (marker v) len ≤ (m a).length ∧ (marker v = tString → 0 < len)) → (∀ e ∈ sub, Fit m e) → (∀ e ∈ sub, Plain e) →
    value flat (one flat d) (marker v) p sub len (AmfSpec.body v ++ tail) m = .ok tail (AmfSpec.take p sub len v m)

theorem takeFields_none : ∀ (f : Fields) (m : Mem), AmfSpec.takeFields [] f m = m
  | .nil, m => by simp [AmfSpec.takeFields]
  | .cons k v f, m => by simp [AmfSpec.takeFields, wanted, takeFields_none f]

theorem takeItems_none : ∀ (f : Values) (m : Mem), AmfSpec.takeItems [] f m = m
  | .nil, m => by simp [AmfSpec.takeItems]
  | .cons v f, m => by simp [AmfSpec.takeItems, wanted, takeItems_none f]

theorem takes_none (v : Value) (len : Nat) (m : Mem) : AmfSpec.take none [] len v m = m := by
  cases v <;> simp [AmfSpec.take, placep, takeFields_none, takeItems_none]

theorem agrees_room {a b len : Nat} (h : agrees a b = true) : room b len = room a len ∧ (b = tString → a = tString) := by
  simp only [agrees, Bool.or_eq_true, Bool.and_eq_true, beq_iff_eq] at h
  rcases h with h | ⟨h1, h2⟩
  · subst h
    exact ⟨rfl, id⟩
  · rcases h1 with rfl | rfl <;> rcases h2 with rfl | rfl <;> exact ⟨rfl, fun h => by cases h⟩

/-- The memory after a value that may be wanted. -/
def after (e : Option Elt) (v : Value) (m : Mem) : Mem := match wanted e v with
  | none => m
  | some e => AmfSpec.take e.mem e.sub e.len v m

/-- One element: a nested call, or a round of the loop. -/
theorem step_takes {v : Value} (hv : Takes v) (e : Option Elt) (d : Nat) (tail : Bytes) (m : Mem) (hd : 2 * v.depth + 1 ≤ d)
    (hf : ∀ x, e = some x → Fit m x) (hp : ∀ x, e = some x → Plain x) :
    step flat (one flat d) e (enc v ++ tail) m = .ok tail (after e v m) := by
  have hget : flat.get (enc v ++ tail) 1 = ([UInt8.ofNat (marker v)], some (AmfSpec.body v ++ tail)) := by
    show flat.get ([UInt8.ofNat (marker v)] ++ (AmfSpec.body v ++ tail)) 1 = _
    exact get_app _ _ rfl
  have hunw : ∀ len, value flat (one flat d) (marker v) none [] len (AmfSpec.body v ++ tail) m = .ok tail m := by
    intro len
    rw [hv d none [] len tail m (by omega) (fun a ha => by cases ha) (fun e he => by cases he) (fun e he => by cases he), takes_none]
  cases e with
  | none =>
    simp only [step, hget, byteOf_marker]
    exact hunw 0
  | some x =>
    have hfx := (hf x rfl).inv
    obtain ⟨h3, hpx⟩ := (hp x rfl).inv
    rcases hpx with ⟨ht, h1⟩ | ⟨hb, ht, ho, h2⟩
    · simp only [step, ht, Bool.false_eq_true, if_false, hget, byteOf_marker]
      rw [Nat.mod_eq_of_lt h1, compat_agrees]
      have hne : ¬x.base = 0x103 := by omega
      simp only [after, wanted, if_neg hne]
      by_cases ha : agrees x.base (marker v) = true
      · rw [if_pos ha, if_pos ha]
        refine hv d x.mem x.sub x.len tail m (by omega) (fun a hm => ?_) hfx.2.2 h3
        obtain ⟨q1, q2⟩ := agrees_room (len := x.len) ha
        rw [q1]
        exact ⟨(hfx.1 a hm).1, fun hh => (hfx.1 a hm).2 (q2 hh)⟩
      · rw [if_neg ha, if_neg ha]
        exact hunw x.len
    · have hval : value flat (one flat d) x.base x.mem x.sub x.len (enc v ++ tail) m = variant flat (one flat d) x.sub (enc v ++ tail) m := by
        rw [hb]
        simp [value, tVariant, tNumber, tBoolean, tString, tNull, tArrayNull, tMixed, tObject, tArray]
      simp only [step, ht, if_true, ho, Bool.false_eq_true, if_false, hval]
      simp only [variant, hget, byteOf_marker]
      obtain ⟨d, rfl⟩ : ∃ d', d = d' + 1 := ⟨d - 1, by omega⟩
      have halt : alternative (marker v) x.sub = (x.sub.filter fun x => x.base == marker v).getLast? := by
        unfold alternative
        congr 1
        apply List.filter_congr
        intro y hy
        obtain ⟨q1, q2⟩ := h2 y hy
        simp [q1, q2]
      simp only [after, wanted]
      rw [if_pos hb, ← halt]
      have hsyn : ∀ (p : Option Nat) (sub : List Elt) (len : Nat) (s : Bytes), one flat (d + 1) (some (.mk (marker v) true false [] p sub len)) s m =
          value flat (one flat d) (marker v) p sub len s m := fun _ _ _ _ => rfl
      cases ha : alternative (marker v) x.sub with
      | none =>
        simp only []
        rw [hsyn, hv d none [] 0 tail m (by omega) (fun a ha => by cases ha) (fun e he => by cases he) (fun e he => by cases he), takes_none]
      | some y =>
        obtain ⟨hy, hb⟩ := alternative_mem ha
        have hfy := (hfx.2.2 y hy).inv
        simp only []
        rw [hsyn]
        refine hv d y.mem y.sub y.len tail m (by omega) (fun a hm => ?_) hfy.2.2 (h3 y hy).inv.1
        rw [← hb]
        exact hfy.1 a hm

theorem one_takes {v : Value} (hv : Takes v) (e : Option Elt) (d : Nat) (tail : Bytes) (m : Mem) (hd : 2 * v.depth + 2 ≤ d)
    (hf : ∀ x, e = some x → Fit m x) (hp : ∀ x, e = some x → Plain x) :
    one flat d e (enc v ++ tail) m = .ok tail (after e v m) := by
  obtain ⟨d, rfl⟩ : ∃ d', d = d' + 1 := ⟨d - 1, by omega⟩
  exact step_takes hv e d tail m (by omega) hf hp

theorem after_sized {v : Value} (hv : Takes v) (e : Option Elt) (m : Mem) (hf : ∀ x, e = some x → Fit m x) (hp : ∀ x, e = some x → Plain x) :
    Sized m (after e v m) := by
  have h := one_good (2 * v.depth + 2) e (enc v ++ []) m hf
  rw [one_takes hv e _ [] m (Nat.le_refl _) hf hp] at h
  exact h.2

/-- What is shown for fields. -/
def TakesF (f : Fields) : Prop :=
  ∀ (d : Nat) (es : List Elt) (n : Nat) (tail : Bytes) (m : Mem), 2 * f.depth + 2 ≤ d → (∀ e ∈ es, Fit m e) → (∀ e ∈ es, Plain e) →
    (AmfSpec.fields f).length < n →
    objLoop flat (one flat d) es n (AmfSpec.fields f ++ ([0, 0, 9] ++ tail)) m = .ok tail (AmfSpec.takeFields es f m)

/-- What is shown for the items of an array. -/
def TakesI (vs : Values) : Prop :=
  ∀ (d : Nat) (es : List Elt) (i : Nat) (tail : Bytes) (m : Mem), 2 * vs.depth + 2 ≤ d → (∀ e ∈ es, Fit m e) → (∀ e ∈ es, Plain e) →
    arrLoop (one flat d) es vs.length i (AmfSpec.items vs ++ tail) m = .ok tail (AmfSpec.takeItems (es.drop i) vs m)

theorem takesF_nil : TakesF .nil := by
  intro d es n tail m hd hf hp hn
  obtain ⟨n, rfl⟩ : ∃ k, n = k + 1 := ⟨n - 1, by omega⟩
  simp only [objLoop, AmfSpec.fields, List.nil_append]
  rw [show ([0, 0, 9] ++ tail : Bytes) = [0, 0] ++ ([9] ++ tail) from rfl, get_app (n := 2) _ _ rfl]
  simp only [show be16 [0, 0] = 0 from rfl, if_pos]
  rw [get_app (n := 1) _ _ rfl]
  simp [AmfSpec.takeFields, tEnd]

theorem takesF_cons (k : Bytes) (v : Value) (f : Fields) (h0 : 0 < k.length) (h1 : k.length < 65536) (hv : Takes v) (hf : TakesF f) :
    TakesF (.cons k v f) := by
  intro d es n tail m hd hfit hp hn
  obtain ⟨n, rfl⟩ : ∃ k, n = k + 1 := ⟨n - 1, by omega⟩
  simp only [AmfSpec.fields, List.length_append, List.length_cons] at hn
  have hd1 : 2 * v.depth + 2 ≤ d ∧ 2 * f.depth + 2 ≤ d := by
    rw [Fields.depth] at hd
    omega
  rw [show (AmfSpec.fields (.cons k v f) ++ ([0, 0, 9] ++ tail) : Bytes) =
      u16 k.length ++ (k ++ (enc v ++ (AmfSpec.fields f ++ ([0, 0, 9] ++ tail)))) by simp [AmfSpec.fields, enc]]
  simp only [objLoop]
  rw [get_app (n := 2) _ _ rfl]
  simp only [be16_u16 h1]
  rw [if_neg (by omega)]
  obtain ⟨y, hy1, hy2⟩ := readName_reads (maxLen es) k (enc v ++ (AmfSpec.fields f ++ ([0, 0, 9] ++ tail)))
  rw [hy1]
  simp only []
  rw [findName_find hp hy2]
  have hfx : ∀ x, (es.find? fun e => e.name == k) = some x → Fit m x := fun x hx => hfit x (List.mem_of_find?_eq_some hx)
  have hpx : ∀ x, (es.find? fun e => e.name == k) = some x → Plain x := fun x hx => hp x (List.mem_of_find?_eq_some hx)
  rw [one_takes hv _ d _ m hd1.1 hfx hpx]
  simp only []
  have hs := after_sized hv _ m hfx hpx
  rw [hf d es n tail _ hd1.2 (fun e he => (hfit e he).sized hs) hp (by omega)]
  simp only [AmfSpec.takeFields]
  rfl

theorem takesI_nil : TakesI .nil := by
  intro d es i tail m hd hf hp
  rfl

theorem takesI_cons (v : Value) (vs : Values) (hv : Takes v) (hvs : TakesI vs) : TakesI (.cons v vs) := by
  intro d es i tail m hd hfit hp
  have hd1 : 2 * v.depth + 2 ≤ d ∧ 2 * vs.depth + 2 ≤ d := by
    rw [Values.depth] at hd
    omega
  rw [show (AmfSpec.items (.cons v vs) ++ tail : Bytes) = enc v ++ (AmfSpec.items vs ++ tail) by simp [AmfSpec.items, enc]]
  simp only [Values.length, arrLoop]
  have hfx : ∀ x, es[i]? = some x → Fit m x := fun x hx => hfit x (List.mem_of_getElem? hx)
  have hpx : ∀ x, es[i]? = some x → Plain x := fun x hx => hp x (List.mem_of_getElem? hx)
  rw [one_takes hv _ d _ m hd1.1 hfx hpx]
  simp only []
  have hs := after_sized hv _ m hfx hpx
  rw [hvs d es (i + 1) tail _ hd1.2 (fun e he => (hfit e he).sized hs) hp]
  simp only [AmfSpec.takeItems, List.tail_drop, List.head?_drop]
  rfl

theorem takes_obj (f : Fields) (hf : TakesF f) : Takes (.obj f) := by
  intro d p sub len tail m hd hp hfit hpl
  rw [Value.depth] at hd
  have hval : ∀ s, value flat (one flat d) (marker (.obj f)) p sub len s m = object flat (one flat d) sub s m := by
    intro s
    simp [value, marker, tNumber, tBoolean, tString, tNull, tArrayNull, tMixed, tObject]
  rw [hval]
  simp only [object, AmfSpec.body, List.append_assoc, AmfSpec.take]
  exact hf d sub _ tail m (by omega) hfit hpl (by simp [flat]; omega)

theorem takes_ecma (n : Nat) (f : Fields) (hf : TakesF f) : Takes (.ecma n f) := by
  intro d p sub len tail m hd hp hfit hpl
  rw [Value.depth] at hd
  have hval : ∀ s, value flat (one flat d) (marker (.ecma n f)) p sub len (u32 n ++ s) m = object flat (one flat d) sub s m := by
    intro s
    show value flat _ 8 p sub len _ m = _
    have e : flat.get (u32 n ++ s) 4 = (u32 n, some s) := get_app _ _ rfl
    simp [value, tNumber, tBoolean, tString, tNull, tArrayNull, tMixed, e]
  simp only [AmfSpec.body, List.append_assoc, AmfSpec.take]
  rw [hval]
  simp only [object]
  exact hf d sub _ tail m (by omega) hfit hpl (by simp [flat]; omega)

theorem takes_strict (vs : Values) (hlen : vs.length < 2 ^ 32) (hf : TakesI vs) : Takes (.strict vs) := by
  intro d p sub len tail m hd hp hfit hpl
  rw [Value.depth] at hd
  have hval : ∀ s, value flat (one flat d) (marker (.strict vs)) p sub len s m = array flat (one flat d) sub s m := by
    intro s
    simp [value, marker, tNumber, tBoolean, tString, tNull, tArrayNull, tMixed, tObject, tArray]
  rw [hval]
  simp only [array, AmfSpec.body, List.append_assoc, AmfSpec.take]
  rw [get_app (n := 4) _ _ rfl]
  simp only [be32_u32 hlen]
  exact hf d sub 0 tail m (by omega) hfit hpl

theorem takes_leaf (v : Value) (hv : v.Ok) (hd : v.depth = 0) : Takes v := by
  intro d p sub len tail m _ hp hfit hpl
  cases v with
  | num b =>
    have hb : b.length = 8 := hv
    simp only [value, marker, tNumber, if_true, AmfSpec.body, AmfSpec.take, fetchRev]
    rw [get_app b tail hb]
    simp only []
    rw [wrp_placep (fun a ha => by rw [List.length_reverse, hb]; exact (hp a ha).1)]
  | bool b =>
    show value flat _ 1 p sub len ([b] ++ tail) m = .ok tail (placep m p [b])
    have e : flat.get ([b] ++ tail) 1 = ([b], some tail) := get_app _ _ rfl
    have e2 : wrp m p 0 [b] = some (placep m p [b]) := wrp_placep (fun a ha => (hp a ha).1)
    simp only [List.cons_append, List.nil_append] at e
    simp [value, tNumber, tBoolean, fetch, e, e2]
  | str x =>
    have hx : x.length < 65536 := hv
    have hval : value flat (one flat d) (marker (.str x)) p sub len (AmfSpec.body (.str x) ++ tail) m =
        string flat p len (AmfSpec.body (.str x) ++ tail) m := by simp [value, marker, tNumber, tBoolean, tString]
    rw [hval]
    simp only [AmfSpec.body, AmfSpec.take]
    exact string_reads x tail hx (fun a ha => ⟨(hp a ha).1, (hp a ha).2 rfl⟩)
  | null => simp [value, marker, tNumber, tBoolean, tString, tNull, tArrayNull, AmfSpec.body, AmfSpec.take]
  | undef => simp [value, marker, tNumber, tBoolean, tString, tNull, tArrayNull, AmfSpec.body, AmfSpec.take]
  | obj f => simp [Value.depth] at hd
  | ecma n f => simp [Value.depth] at hd
  | strict vs => simp [Value.depth] at hd

mutual
theorem takes (v : Value) (h : v.Ok) : Takes v := match v with
  | .num _ => takes_leaf _ h rfl
  | .bool _ => takes_leaf _ h rfl
  | .str _ => takes_leaf _ h rfl
  | .null => takes_leaf _ h rfl
  | .undef => takes_leaf _ h rfl
  | .obj f => takes_obj f (takesF f h)
  | .ecma n f => takes_ecma n f (takesF f h)
  | .strict vs => takes_strict vs h.1 (takesI vs h.2)
theorem takesF (f : Fields) (h : f.Ok) : TakesF f := match f with
  | .nil => takesF_nil
  | .cons k v f => takesF_cons k v f h.1 h.2.1 (takes v h.2.2.1) (takesF f h.2.2.2)
theorem takesI (vs : Values) (h : vs.Ok) : TakesI vs := match vs with
  | .nil => takesI_nil
  | .cons v vs => takesI_cons v vs (takes v h.1) (takesI vs h.2)
end

end Verif.Amf
