import Verif.BufChain

/-!
# Properties C01 and C02: buffer chains behave like flat byte strings

Specification: the content of a chain is the concatenation of its buffers
(`List.flatten`, from the Lean library). All statements are in terms of the content.
-/

namespace Verif.BufChain

/-! ## C01 -/

/-- C01: when the chain holds at least `n` bytes, copy returns exactly the first `n` bytes of
the content and leaves exactly the rest. -/
theorem copy_exact {α : Type} (c : Chain α) (n : Nat) (h : n ≤ c.flatten.length) :
    (copy c n).1 = some (c.flatten.take n) ∧ (copy c n).2.flatten = c.flatten.drop n := by
  induction c generalizing n with
  | nil =>
    have : n = 0 := by simpa using h
    subst this; simp [copy]
  | cons b rest ih =>
    cases n with
    | zero => simp [copy]
    | succ m =>
      unfold copy
      by_cases hlt : m + 1 < b.length
      · simp only [if_pos hlt]
        have h1 : m + 1 - b.length = 0 := by omega
        simp [List.take_append, List.drop_append, h1]
      · simp only [if_neg hlt]
        have h2 : m + 1 - b.length ≤ rest.flatten.length := by
          simp only [List.flatten_cons, List.length_append] at h; omega
        obtain ⟨e1, e2⟩ := ih _ h2
        have ht : b.take (m + 1) = b := List.take_of_length_le (by omega)
        have hd : b.drop (m + 1) = [] := List.drop_of_length_le (by omega)
        simp [e1, e2, List.take_append, List.drop_append, ht, hd]

/-- C01: copy fails (returns NULL) exactly when the chain holds fewer than `n` bytes. -/
theorem copy_fails_iff {α : Type} (c : Chain α) (n : Nat) :
    (copy c n).1 = none ↔ c.flatten.length < n := by
  constructor
  · intro h
    by_cases hle : n ≤ c.flatten.length
    · rw [(copy_exact c n hle).1] at h; cases h
    · omega
  · intro h
    induction c generalizing n with
    | nil =>
      cases n with
      | zero => simp at h
      | succ m => simp [copy]
    | cons b rest ih =>
      cases n with
      | zero => simp at h
      | succ m =>
        unfold copy
        simp only [List.flatten_cons, List.length_append] at h
        have hlt : ¬ (m + 1 < b.length) := by omega
        simp only [if_neg hlt]
        rw [ih (m + 1 - b.length) (by omega)]
        rfl

/-- Several copies in a row: the list of results, stopping at the first failure. -/
def copyMany {α : Type} : Chain α → List Nat → Option (List (List α))
  | _, [] => some []
  | c, n :: ns =>
    match copy c n with
    | (some bytes, c') => (copyMany c' ns).map (bytes :: ·)
    | (none, _) => none

/-- Specification: cut a flat string into pieces of the given sizes. -/
def cut {α : Type} : List α → List Nat → List (List α)
  | _, [] => []
  | s, n :: ns => s.take n :: cut (s.drop n) ns

/-- C01: any sequence of copies cuts the content into consecutive pieces. -/
theorem copyMany_cut {α : Type} (c : Chain α) (ns : List Nat)
    (h : ns.sum ≤ c.flatten.length) :
    copyMany c ns = some (cut c.flatten ns) := by
  induction ns generalizing c with
  | nil => rfl
  | cons n ns ih =>
    simp only [List.sum_cons] at h
    obtain ⟨e1, e2⟩ := copy_exact c n (by omega)
    unfold copyMany
    have hpair : copy c n = (some (c.flatten.take n), (copy c n).2) := by
      rw [← e1]
    rw [hpair]
    simp only
    rw [ih _ (by rw [e2, List.length_drop]; omega), e2]
    rfl

/-- C01: the result depends only on the content, not on the fragmentation. -/
theorem copy_fragmentation_independent {α : Type} (c c' : Chain α) (n : Nat)
    (h : c.flatten = c'.flatten) : (copy c n).1 = (copy c' n).1 := by
  by_cases hle : n ≤ c.flatten.length
  · rw [(copy_exact c n hle).1, (copy_exact c' n (h ▸ hle)).1, h]
  · rw [(copy_fails_iff c n).2 (by omega), (copy_fails_iff c' n).2 (by rw [← h]; omega)]

example : copyMany [[1, 2], [], [3], [4, 5, 6]] [1, 2, 0, 3] = some [[1], [2, 3], [], [4, 5, 6]]
    ∧ [1, 2, 0, 3].sum ≤ ([[1, 2], [], [3], [4, 5, 6]] : Chain Nat).flatten.length := by decide

example : (copy [[1, 2], [3]] 4 : Option (List Nat) × Chain Nat).1 = none := by decide

/-! ## C02 -/

/-- C02: skip succeeds exactly when the chain holds `n` bytes, and drops exactly them. -/
theorem skip_exact {α : Type} (c : Chain α) (n : Nat) :
    ((skip c n).1 = true ↔ n ≤ c.flatten.length) ∧
    (skip c n).2.flatten = c.flatten.drop n := by
  induction c generalizing n with
  | nil => cases n <;> simp [skip]
  | cons b rest ih =>
    cases n with
    | zero => simp [skip]
    | succ m =>
      unfold skip
      by_cases hlt : m + 1 < b.length
      · simp only [if_pos hlt]
        have h1 : m + 1 - b.length = 0 := by omega
        simp only [List.flatten_cons, List.length_append, List.drop_append, h1, List.drop_zero,
          true_iff, and_true]
        omega
      · simp only [if_neg hlt]
        obtain ⟨e1, e2⟩ := ih (m + 1 - b.length)
        have hd : b.drop (m + 1) = [] := List.drop_of_length_le (by omega)
        rw [e1, e2]
        simp only [List.flatten_cons, List.length_append, List.drop_append, hd, List.nil_append,
          and_true]
        omega

/-- C02: seek finds the buffer and offset of the byte at flat position `off`; it never runs
off the chain when `off` is inside the content. -/
theorem seek_exact {α : Type} (c : Chain α) (off : Nat) (h : off < c.flatten.length) :
    ∃ pre b rest o, c = pre ++ b :: rest ∧ seek c off = .ok (b :: rest, o) ∧ o < b.length ∧
      off = pre.flatten.length + o ∧ (b :: rest).flatten.drop o = c.flatten.drop off := by
  induction c generalizing off with
  | nil => simp at h
  | cons b rest ih =>
    unfold seek
    by_cases hlt : off < b.length
    · exact ⟨[], b, rest, off, rfl, by simp [hlt], hlt, by simp, rfl⟩
    · simp only [if_neg hlt]
      have h2 : off - b.length < rest.flatten.length := by
        simp only [List.flatten_cons, List.length_append] at h; omega
      obtain ⟨pre, b', rest', o, hc, hs, ho, hoff, hdrop⟩ := ih _ h2
      refine ⟨b :: pre, b', rest', o, by rw [hc]; rfl, hs, ho, ?_, ?_⟩
      · simp only [List.flatten_cons, List.length_append]; omega
      · rw [hdrop, List.flatten_cons, List.drop_append,
          List.drop_of_length_le (l := b) (by omega), List.nil_append]

/-- C02: outside the content, seek runs off the chain: callers must not do that. -/
theorem seek_ub_iff {α : Type} (c : Chain α) (off : Nat) :
    seek c off = .ub ↔ c.flatten.length ≤ off := by
  constructor
  · intro h
    by_cases hlt : off < c.flatten.length
    · obtain ⟨_, _, _, _, _, hs, _⟩ := seek_exact c off hlt
      rw [hs] at h; cases h
    · omega
  · intro h
    induction c generalizing off with
    | nil => rfl
    | cons b rest ih =>
      simp only [List.flatten_cons, List.length_append] at h
      unfold seek
      rw [if_neg (by omega)]
      exact ih _ (by omega)

theorem memcmp_eq_zero_iff : ∀ (a b : List UInt8), a.length = b.length →
    (memcmp a b = 0 ↔ a = b)
  | [], [], _ => by simp [memcmp]
  | [], _ :: _, h => by simp at h
  | _ :: _, [], h => by simp at h
  | x :: xs, y :: ys, h => by
    have ih := memcmp_eq_zero_iff xs ys (by simpa using h)
    unfold memcmp
    by_cases h1 : x < y
    · simp [h1]; intro e; subst e; exact absurd h1 (UInt8.lt_irrefl x)
    · by_cases h2 : y < x
      · simp [h1, h2]; intro e; subst e; exact absurd h2 (UInt8.lt_irrefl x)
      · have : x = y := UInt8.le_antisymm (UInt8.not_lt.1 h2) (UInt8.not_lt.1 h1)
        simp [this, ih]

theorem compareLoop_zero_iff (c : Chain UInt8) (buf : List UInt8) (hpos : 0 < buf.length) :
    compareLoop c buf = 0 ↔ buf <+: c.flatten := by
  induction c generalizing buf with
  | nil =>
    simp only [compareLoop, List.flatten_nil, List.prefix_nil]
    constructor
    · intro h; cases h
    · intro h; subst h; simp at hpos
  | cons b rest ih =>
    unfold compareLoop
    by_cases hle : buf.length ≤ b.length
    · rw [if_pos hle, memcmp_eq_zero_iff _ _ (by simp; omega), List.flatten_cons,
        List.prefix_iff_eq_take, List.take_append_of_le_length hle]
    · rw [if_neg hle]
      have hz := memcmp_eq_zero_iff (buf.take b.length) b (by simp; omega)
      by_cases hrc : memcmp (buf.take b.length) b = 0
      · have heq := hz.1 hrc
        have hsplit : buf = b ++ buf.drop b.length := by
          conv => lhs; rw [← List.take_append_drop b.length buf, heq]
        simp only [hrc, ne_eq, not_true_eq_false, if_false]
        rw [ih _ (by simp; omega), List.flatten_cons]
        conv => rhs; rw [hsplit]
        rw [List.prefix_append_right_inj]
      · simp only [ne_eq, hrc, not_false_eq_true, if_true, false_iff]
        intro hp
        apply hrc
        rw [hz]
        have hb : b <+: (b :: rest).flatten := by simp
        have h3 : b <+: buf := List.prefix_of_prefix_length_le hb hp (by omega)
        exact (List.prefix_iff_eq_take.1 h3).symm

/-- C02: compare says "equal" exactly when the content starts with the given bytes. -/
theorem compare_zero_iff (c : Chain UInt8) (buf : List UInt8) :
    compare c buf = 0 ↔ buf <+: c.flatten := by
  unfold compare
  by_cases h : buf.length ≤ 0
  · have : buf = [] := List.eq_nil_of_length_eq_zero (by omega)
    subst this; simp
  · rw [if_neg h]; exact compareLoop_zero_iff c buf (by omega)

theorem sub32_exact {a b : Nat} (hb : b ≤ a) (ha : a < 2 ^ 32) : sub32 a b = a - b := by
  unfold sub32
  have : b % 2 ^ 32 = b := Nat.mod_eq_of_lt (by omega)
  rw [this, show a + 2 ^ 32 - b = (a - b) + 2 ^ 32 by omega, Nat.add_mod_right,
    Nat.mod_eq_of_lt (by omega)]

/-- C02: when a chain starts with the buffers of an item of `size` bytes (all buffers but the
last contribute to a total smaller than `size`, and the total with the last is `size`), get_tail
returns that last buffer; in particular it does not run off the chain. -/
theorem getTail_exact {α : Type} (pre : Chain α) (b : List α) (rest : Chain α) (size : Nat)
    (hsize : size = pre.flatten.length + b.length) (hb : 0 < b.length) (h32 : size < 2 ^ 32) :
    getTail (pre ++ b :: rest) size = .ok (b :: rest) := by
  induction pre generalizing size with
  | nil =>
    simp only [List.flatten_nil, List.length_nil, Nat.zero_add] at hsize
    unfold getTail
    simp only [List.nil_append]
    rw [sub32_exact (by omega) h32]; simp [hsize]
  | cons p pre ih =>
    simp only [List.flatten_cons, List.length_append] at hsize
    simp only [List.cons_append]
    unfold getTail
    simp only
    rw [sub32_exact (by omega) h32, if_neg (by omega)]
    exact ih _ (by omega) (by omega)

/-- C02: terminating the chain of an item of `size` bytes keeps exactly the item's bytes, and the
returned tail is the item's last buffer. -/
theorem terminate_exact {α : Type} (pre : Chain α) (b : List α) (rest : Chain α) (size : Nat)
    (hsize : size = pre.flatten.length + b.length) (hb : 0 < b.length) (h32 : size < 2 ^ 32) :
    ∃ c, terminate (pre ++ b :: rest) size = .ok (c, b) ∧
      c.flatten = (pre ++ b :: rest).flatten.take size := by
  induction pre generalizing size with
  | nil =>
    simp only [List.flatten_nil, List.length_nil, Nat.zero_add] at hsize
    refine ⟨[b], ?_, by simp [hsize]⟩
    unfold terminate
    simp only [List.nil_append]
    rw [sub32_exact (by omega) h32]; simp [hsize]
  | cons p pre ih =>
    simp only [List.flatten_cons, List.length_append] at hsize
    obtain ⟨c, hc, hf⟩ := ih (size - p.length) (by omega) (by omega)
    refine ⟨p :: c, ?_, ?_⟩
    · simp only [List.cons_append]
      unfold terminate
      simp only
      rw [sub32_exact (by omega) h32, if_neg (by omega), hc]
    · simp only [List.cons_append, List.flatten_cons, hf, List.take_append,
        List.take_of_length_le (show p.length ≤ size by omega)]

example : seek [[1, 2], [], [3, 4, 5]] 3 = .ok ([[3, 4, 5]], 1) := by decide
example : compare [[1, 2], [], [3, 4]] [1, 2, 3] = 0 ∧ compare [[1, 2], [3]] [1, 2, 4] = 1 := by
  decide
example : skip [[1, 2], [3, 4, 5]] 3 = (true, [[4, 5]]) := by decide
example : getTail [[1, 2], [3], [4]] 3 = .ok [[3], [4]] := by decide
example : terminate [[1, 2], [3], [4]] 3 = .ok ([[1, 2], [3]], [3]) := by decide

/-- Outside the precondition of `getTail_exact` (the item does not end at a buffer end) the
unsigned size wraps and the walk leaves the chain. -/
example : getTail [[1, 2, 3]] 2 = .ub := by decide

end Verif.BufChain
