import Verif.SegmentListProps

/-!
# C28: restoring from any bytes
-/

namespace Verif.SegmentList

/-- A part of what is restored: first index, start time, durations. -/
structure Part where
  idx : Nat
  time : Int
  ds : List Nat

def Part.segs (p : Part) : List Seg := seq p.idx p.time p.ds

/-- In the announced range, and not empty. -/
def Part.Fits (sc : Scope) (p : Part) : Prop := p.ds ≠ [] ∧ sc.min ≤ p.idx ∧ p.idx + p.ds.length ≤ sc.max + 1

/-- The times do not go back. -/
def Part.Later (p q : Part) : Prop := p.time + (p.ds.sum : Nat) ≤ q.time

/-- The sums of the times of a block can be computed. -/
def Sums (b : List UInt8 × Option Nat) : Prop :=
  ∀ k, b.2 = some k → int64 (b.1.take 8) + ((durs (decode (b.1.drop (16 + k)))).sum : Nat) < 2 ^ 63 ∧
    ((durs (decode (b.1.drop (16 + k)))).sum : Nat) < 2 ^ 63

theorem num_lt : ∀ (l : List UInt8), num l < 256 ^ l.length
  | [] => by simp [num]
  | x :: l => by
    have := num_lt l
    have hx := x.toNat_lt
    show x.toNat + 256 * num l < 256 ^ (l.length + 1)
    rw [Nat.pow_succ]
    omega

theorem int64_ge (l : List UInt8) : -2 ^ 63 ≤ int64 l := by
  unfold int64; split <;> omega

/-- One block. -/
theorem period_any {r : SL} {sc : Scope} {alloc : Nat} (b : List UInt8 × Option Nat) (hw : Weak r) (hM : sc.max + 1 < 2 ^ 32) :
    (Sums b → readPeriod r sc alloc b.1 b.2 ≠ .ub) ∧
    ∀ r', readPeriod r sc alloc b.1 b.2 = .ok r' → r' = r ∨
      (Weak r' ∧ r'.isFirst = false ∧ ∃ p : Part, p.Fits sc ∧ segs r' = segs r ++ p.segs ∧ (r.nodes ≠ [] → r.lastTime ≤ p.time) ∧
        (∀ n, r.nodes.getLast? = some n → r.isFirst = true → n.last < sc.min) ∧ r'.lastTime = p.time + (p.ds.sum : Nat) ∧
        r'.segCount = r.segCount + p.ds.length ∧ r'.nodes ≠ []) := by
  unfold readPeriod
  by_cases h1 : b.1.length < 16
  · rw [if_pos h1]; exact ⟨fun _ => by simp, fun _ h => nomatch h⟩
  rw [if_neg h1]
  dsimp only
  by_cases h2 : num ((b.1.drop 8).take 4) < sc.min ∨ num ((b.1.drop 8).take 4) > sc.max
  · rw [if_pos h2]; exact ⟨fun _ => by simp, fun _ h => nomatch h⟩
  rw [if_neg h2]
  cases h3 : b.2 with
  | none => exact ⟨fun _ => by simp, fun _ h => nomatch h⟩
  | some k =>
    dsimp only
    by_cases h4 : b.1.length < 16 + k
    · rw [if_pos h4]; exact ⟨fun _ => by simp, fun _ h => nomatch h⟩
    rw [if_neg h4]
    generalize hes : decode (b.1.drop (16 + k)) = es
    cases h5 : es.isEmpty with
    | true =>
      refine ⟨fun _ => by simp, fun r' h => .inl ?_⟩
      injection h with h
      exact h.symm
    | false =>
      rw [if_neg (by simp)]
      have hne : es ≠ [] := by intro e; rw [e] at h5; exact nomatch h5
      have hi : num ((b.1.drop 8).take 4) ≤ sc.max := by omega
      have hl : sc.min ≤ num ((b.1.drop 8).take 4) := by omega
      generalize num ((b.1.drop 8).take 4) = idx at hi hl
      refine ⟨fun hs => (readElts_def hw hM hi hne ?_).1, fun r' h => .inr ?_⟩
      · obtain ⟨s1, s2⟩ := hs k h3
        rw [hes] at s1 s2
        exact ⟨int64_ge _, s2, s1⟩
      · have hres := readElts_ok hw hM hi h
        obtain ⟨q1, q2⟩ := read_weak hw hres hne
        have hp := durs_pos hne hres.pos
        refine ⟨q1, hres.ft, ⟨idx, _, durs es⟩, ⟨?_, hl, hres.fits⟩, q2, hres.later, hres.first, hres.lt, hres.cs, ?_⟩
        · intro e
          dsimp only at e
          rw [e] at hp
          exact absurd hp (by simp)
        · intro e
          have hz : segs r' = [] := by unfold segs; rw [e]; rfl
          rw [q2] at hz
          have := congrArg List.length (List.append_eq_nil_iff.1 hz).2
          rw [seq_length] at this
          simp at this
          rw [this] at hp
          exact absurd hp (by simp)

/-- All blocks. -/
theorem blocks_any {sc : Scope} {alloc : Nat} (hM : sc.max + 1 < 2 ^ 32) : ∀ (bs : List (List UInt8 × Option Nat)) (r : SL), Weak r →
    ((∀ b ∈ bs, Sums b) → readBlocks sc alloc r bs ≠ .ub) ∧
    ∀ r', readBlocks sc alloc r bs = .ok r' → Weak r' ∧ ∃ ps : List Part, segs r' = segs r ++ ps.flatMap Part.segs ∧ (∀ p ∈ ps, p.Fits sc) ∧
      Adj Part.Later ps ∧ (∀ p, ps.head? = some p → (r.nodes ≠ [] → r.lastTime ≤ p.time) ∧
        ∀ n, r.nodes.getLast? = some n → r.isFirst = true → n.last < sc.min) ∧
      r'.segCount = r.segCount + (ps.flatMap Part.segs).length
  | [], r, hw => by
    refine ⟨fun _ => by unfold readBlocks; simp, fun r' h => ?_⟩
    injection h with h
    subst h
    exact ⟨hw, [], by simp, fun _ h => absurd h List.not_mem_nil, adj_nil _, (fun _ h => by cases h), by simp⟩
  | b :: bs, r, hw => by
    obtain ⟨p1, p2⟩ := period_any (alloc := alloc) b hw hM
    cases h1 : readPeriod r sc alloc b.1 b.2 with
    | err =>
      refine ⟨fun _ => ?_, fun r' h => ?_⟩
      · rw [readBlocks, h1]; exact fun h => nomatch h
      · rw [readBlocks, h1] at h; exact nomatch h
    | ub =>
      refine ⟨fun hs => absurd h1 (p1 (hs b (by simp))), fun r' h => ?_⟩
      rw [readBlocks, h1] at h; exact nomatch h
    | ok r1 =>
      rw [readBlocks, h1]
      show (_ → readBlocks sc alloc r1 bs ≠ .ub) ∧ ∀ r', readBlocks sc alloc r1 bs = .ok r' → _
      rcases p2 r1 h1 with e | ⟨w1, w2, p, w3, w4, w5, w6, w7, w8, w9⟩
      · subst e
        obtain ⟨q1, q2⟩ := blocks_any hM bs r1 hw
        exact ⟨fun hs => q1 (fun x hx => hs x (List.mem_cons_of_mem _ hx)), q2⟩
      · obtain ⟨q1, q2⟩ := blocks_any hM bs r1 w1
        refine ⟨fun hs => q1 (fun x hx => hs x (List.mem_cons_of_mem _ hx)), fun r' h => ?_⟩
        obtain ⟨z1, ps, z2, z3, z4, z5, z6⟩ := q2 r' h
        refine ⟨z1, p :: ps, by rw [z2, w4, List.append_assoc, List.flatMap_cons], fun x hx => ?_, ?_, fun x hx => ?_, ?_⟩
        · rcases List.mem_cons.1 hx with hx | hx
          · rw [hx]; exact w3
          · exact z3 x hx
        · cases ps with
          | nil => exact adj_single _ _
          | cons q ps =>
            refine adj_cons.2 ⟨?_, z4⟩
            have := (z5 q rfl).1 w9
            unfold Part.Later; omega
        · injection hx with hx
          subst hx
          exact ⟨w5, w6⟩
        · rw [z6, w8, List.flatMap_cons, List.length_append]
          have : p.segs.length = p.ds.length := seq_length _ _ _
          omega

/-- The full statement: no undefined behaviour, and the indexes go up. It does not hold, see `overflow`, `indexes_back`
and `count_wraps`. -/
def RestoreSafe (s : SL) (sc : Scope) (alloc : Nat) (bs : List (List UInt8 × Option Nat)) : Prop :=
  readList s sc alloc bs ≠ .ub ∧
  ∀ s', readList s sc alloc bs = .ok s' → (segs s').Pairwise (fun g k => g.idx < k.idx) ∧ ∀ n ∈ s'.nodes, ∀ e ∈ n.elts, 0 < e.count

/-- Restoring from any bytes, after any history: an error, or what was there before and then one part for each block with
elements. The indexes of a part are in the announced range and without a gap, the times do not go back, the first part is
after what was there before, and every run is not empty. Missing: that the parts do not overlap, the sums of the times, and the
range whose end is the highest 32 bit number. -/
theorem restore_partial {s : SL} {H : List Seg} {m alloc : Nat} {sc : Scope} (hr : Reach true s H m) (hH : ∀ g ∈ H, g.idx + 1 < 2 ^ 32)
    (hM : sc.max + 1 < 2 ^ 32) (bs : List (List UInt8 × Option Nat)) :
    ((∀ b ∈ bs, Sums b) → readList s sc alloc bs ≠ .ub) ∧
    ∀ s', readList s sc alloc bs = .ok s' → ∃ ps : List Part, segs s' = segs s ++ ps.flatMap Part.segs ∧ (∀ p ∈ ps, p.Fits sc) ∧
      Adj Part.Later ps ∧ (ps ≠ [] → ∀ g ∈ H, g.idx < sc.min) ∧ (∀ n ∈ s'.nodes, ∀ e ∈ n.elts, 0 < e.count) ∧
      s'.segCount = (segs s').length := by
  have h := reach_rep hr
  have hw := h.inv.weak (fun g hg => hH g (h.sub g hg))
  obtain ⟨b1, b2⟩ := blocks_any (alloc := alloc) hM bs { s with isFirst := true } ⟨hw.ok, hw.last⟩
  refine ⟨b1, fun s' he => ?_⟩
  obtain ⟨z1, ps, z2, z3, z4, z5, z6⟩ := b2 s' he
  refine ⟨ps, z2, z3, z4, fun hne g hg => ?_, fun n hn => (z1.ok n hn).pos, ?_⟩
  · cases ps with
    | nil => exact absurd rfl hne
    | cons p ps =>
      have hlast := h.last
      have hsome := h.some (List.ne_nil_of_mem hg)
      rcases snoc_cases H with hz | ⟨H', k, hz⟩
      · rw [hz] at hg; exact absurd hg List.not_mem_nil
      · have hk : (segs s).getLast? = some k := by rw [← hlast, hz]; simp
        cases hn : s.nodes.getLast? with
        | none =>
          have := List.getLast?_eq_none_iff.1 hn
          unfold segs at hsome; rw [this] at hsome; exact absurd rfl hsome
        | some n =>
          have h1 := (z5 p rfl).2 n hn rfl
          have h2 := le_last h.inv hn k (List.mem_of_getLast? hk)
          have hso := h.sorted
          rw [hz] at hso hg
          rcases List.mem_append.1 hg with hg | hg
          · have := (List.pairwise_append.1 hso).2.2 g hg k (by simp); omega
          · rw [List.mem_singleton.1 hg]; omega
  · have z6' : s'.segCount = s.segCount + (ps.flatMap Part.segs).length := z6
    have z2' : segs s' = segs s ++ ps.flatMap Part.segs := z2
    rw [z6', z2', List.length_append, h.inv.cs]

/-- With a single block that has elements the indexes go up over the whole list. -/
theorem restore_single {s : SL} {H : List Seg} {m alloc : Nat} {sc : Scope} (hr : Reach true s H m) (hH : ∀ g ∈ H, g.idx + 1 < 2 ^ 32)
    (hM : sc.max + 1 < 2 ^ 32) (b : List UInt8 × Option Nat) {s' : SL} (he : readList s sc alloc [b] = .ok s') :
    (segs s').Pairwise (fun g k => g.idx < k.idx) := by
  have h := reach_rep hr
  have hw := h.inv.weak (fun g hg => hH g (h.sub g hg))
  have hw' : Weak { s with isFirst := true } := ⟨hw.ok, hw.last⟩
  obtain ⟨_, p2⟩ := period_any (alloc := alloc) (sc := sc) b hw' hM
  have hso : (segs { s with isFirst := true }).Pairwise (fun g k => g.idx < k.idx) := segs_sorted (s := s) h.inv
  unfold readList at he
  rw [readBlocks] at he
  cases h1 : readPeriod { s with isFirst := true } sc alloc b.1 b.2 with
  | err => rw [h1] at he; exact nomatch he
  | ub => rw [h1] at he; exact nomatch he
  | ok r1 =>
    rw [h1] at he
    injection he with he
    subst he
    rcases p2 _ h1 with e | ⟨w1, w2, p, w3, w4, w5, w6, w7, w8, w9⟩
    · rw [e]; exact hso
    · rw [w4]
      refine List.pairwise_append.2 ⟨hso, seq_sorted _ _ _, fun g hg k hk => ?_⟩
      have := seq_mem _ _ _ k hk
      have hg' : g ∈ segs s := hg
      cases hn : s.nodes.getLast? with
      | none =>
        have := List.getLast?_eq_none_iff.1 hn
        unfold segs at hg'; rw [this] at hg'; exact absurd hg' List.not_mem_nil
      | some n =>
        have := le_last h.inv hn g hg'
        have := w6 n hn rfl
        have := w3.2.1
        omega

end Verif.SegmentList
