import Verif.LbaProps

/-!
# Property C07: free buffers are reused before a new block is mapped

Holds for builds with NGX_DEBUG and at least two buffers per block
(`alloc_never_fails_partial`, `new_block_only_when_full_partial`). It fails in the two remaining
cases; see the witnesses at the end of the file.
-/

namespace Verif.Lba

/-- Consecutive elements are linked both ways. -/
def Links (nx pv : Nat → Option Nat) : List Nat → Prop
  | a :: b :: l => nx a = some b ∧ pv b = some a ∧ Links nx pv (b :: l)
  | _ => True

theorem links_append (nx pv : Nat → Option Nat) (a : Nat) (R : List Nat) : ∀ P : List Nat,
    Links nx pv (P ++ a :: R) ↔ Links nx pv (P ++ [a]) ∧ Links nx pv (a :: R)
  | [] => by simp [Links]
  | [b] => by simp [Links, and_assoc]
  | b :: c :: P => by
    have := links_append nx pv a R (c :: P)
    simp only [List.cons_append, Links] at this ⊢
    rw [this, and_assoc, and_assoc]

theorem links_congr {nx pv nx' pv' : Nat → Option Nat} : ∀ {l : List Nat},
    (∀ k ∈ l.dropLast, nx' k = nx k) → (∀ k ∈ l.tail, pv' k = pv k) →
    Links nx pv l → Links nx' pv' l
  | [], _, _, _ => trivial
  | [_], _, _, _ => trivial
  | a :: b :: l, h1, h2, h => by
    obtain ⟨h3, h4, h5⟩ := h
    refine ⟨?_, ?_, ?_⟩
    · rw [h1 a (by simp [List.dropLast])]; exact h3
    · rw [h2 b (by simp)]; exact h4
    · refine links_congr ?_ ?_ h5
      · intro k hk; exact h1 k (by simp [List.dropLast, hk])
      · intro k hk; exact h2 k (by simp at hk ⊢; exact Or.inr hk)

theorem mem_of_mem_dropLast' {k : Nat} {l : List Nat} (h : k ∈ l.dropLast) : k ∈ l :=
  (List.dropLast_sublist l).subset h

theorem mem_of_mem_tail' {k : Nat} {l : List Nat} (h : k ∈ l.tail) : k ∈ l :=
  (List.tail_sublist l).subset h

theorem links_insert {nx pv nx' pv' : Nat → Option Nat} {P Q : List Nat} {p n x : Nat}
    (hl : Links nx pv (P ++ p :: n :: Q)) (H1 : (P ++ p :: (n :: Q).dropLast).Nodup)
    (H2 : ((P ++ [p]).tail ++ n :: Q).Nodup) (hx : x ∉ P ++ p :: n :: Q)
    (a1 : nx' x = some n) (a2 : nx' p = some x) (a3 : ∀ k, k ≠ x → k ≠ p → nx' k = nx k)
    (b1 : pv' n = some x) (b2 : pv' x = some p) (b3 : ∀ k, k ≠ x → k ≠ n → pv' k = pv k) :
    Links nx' pv' (P ++ p :: x :: n :: Q) := by
  rw [links_append] at hl ⊢
  obtain ⟨h1, h2⟩ := hl
  simp only [Links] at h2
  obtain ⟨-, -, h2⟩ := h2
  rw [List.nodup_append] at H1 H2
  obtain ⟨H1a, H1b, H1c⟩ := H1
  obtain ⟨H2a, H2b, H2c⟩ := H2
  simp only [List.mem_append, List.mem_cons, not_or] at hx
  obtain ⟨hxP, hxp, hxn, hxQ⟩ := hx
  refine ⟨links_congr ?_ ?_ h1, a2, b2, a1, b1, links_congr ?_ ?_ h2⟩
  · intro k hk
    simp only [List.dropLast_concat] at hk
    exact a3 k (fun h => hxP (h ▸ hk)) (fun h => H1c k hk p (by simp) h)
  · intro k hk
    refine b3 k ?_ (fun h => H2c k hk n (by simp) h)
    intro h; subst h
    have := mem_of_mem_tail' hk
    simp at this
    rcases this with h | h
    · exact hxP h
    · exact hxp h
  · intro k hk
    refine a3 k ?_ ?_
    · intro h; subst h
      have := mem_of_mem_dropLast' hk
      simp at this
      rcases this with h | h
      · exact hxn h
      · exact hxQ h
    · intro h; subst h
      exact (List.nodup_cons.1 H1b).1 hk
  · intro k hk
    simp only [List.tail_cons] at hk
    refine b3 k (fun h => hxQ (h ▸ hk)) ?_
    intro h; subst h
    exact (List.nodup_cons.1 H2b).1 hk

theorem links_remove {nx pv nx' pv' : Nat → Option Nat} {P Q : List Nat} {p n x : Nat}
    (hl : Links nx pv (P ++ p :: x :: n :: Q)) (H1 : (P ++ p :: (n :: Q).dropLast).Nodup)
    (H2 : ((P ++ [p]).tail ++ n :: Q).Nodup) (hx : x ∉ P ++ p :: n :: Q)
    (a2 : nx' p = some n) (a3 : ∀ k, k ≠ x → k ≠ p → nx' k = nx k)
    (b1 : pv' n = some p) (b3 : ∀ k, k ≠ x → k ≠ n → pv' k = pv k) :
    Links nx' pv' (P ++ p :: n :: Q) := by
  rw [links_append] at hl ⊢
  obtain ⟨h1, h2⟩ := hl
  simp only [Links] at h2
  obtain ⟨-, -, -, -, h2⟩ := h2
  rw [List.nodup_append] at H1 H2
  obtain ⟨H1a, H1b, H1c⟩ := H1
  obtain ⟨H2a, H2b, H2c⟩ := H2
  simp only [List.mem_append, List.mem_cons, not_or] at hx
  obtain ⟨hxP, hxp, hxn, hxQ⟩ := hx
  refine ⟨links_congr ?_ ?_ h1, a2, b1, links_congr ?_ ?_ h2⟩
  · intro k hk
    simp only [List.dropLast_concat] at hk
    exact a3 k (fun h => hxP (h ▸ hk)) (fun h => H1c k hk p (by simp) h)
  · intro k hk
    refine b3 k ?_ (fun h => H2c k hk n (by simp) h)
    intro h; subst h
    have := mem_of_mem_tail' hk
    simp at this
    rcases this with h | h
    · exact hxP h
    · exact hxp h
  · intro k hk
    refine a3 k ?_ ?_
    · intro h; subst h
      have := mem_of_mem_dropLast' hk
      simp at this
      rcases this with h | h
      · exact hxn h
      · exact hxQ h
    · intro h; subst h
      exact (List.nodup_cons.1 H1b).1 hk
  · intro k hk
    simp only [List.tail_cons] at hk
    refine b3 k (fun h => hxQ (h ▸ hk)) ?_
    intro h; subst h
    exact (List.nodup_cons.1 H2b).1 hk

/-- The active queue is a well formed circular list through the sentinel, in increasing order of
bins; the other bins have a NULL link. -/
structure Cyc (l : Lba) (L : List Nat) : Prop where
  sorted : L.Pairwise (· < ·)
  lt     : ∀ k ∈ L, k < l.binCount
  links  : Links l.nx l.pv (l.binCount :: L ++ [l.binCount])
  null   : ∀ k, k < l.binCount → k ∉ L → l.nx k = none

theorem exists_snoc (s : Nat) (A : List Nat) : ∃ P p, s :: A = P ++ [p] := by
  refine ⟨(s :: A).dropLast, (s :: A).getLast (by simp), ?_⟩
  exact (List.dropLast_concat_getLast _).symm

theorem exists_head (s : Nat) (B : List Nat) : ∃ n Q, B ++ [s] = n :: Q := by
  cases B with
  | nil => exact ⟨s, [], rfl⟩
  | cons b t => exact ⟨b, t ++ [s], rfl⟩

section
variable {l : Lba} {A B P Q : List Nat} {p n : Nat}

theorem full_eq (s : Nat) (h1 : s :: A = P ++ [p]) (h2 : B ++ [s] = n :: Q) (M : List Nat) :
    s :: (A ++ M ++ B) ++ [s] = P ++ p :: (M ++ n :: Q) := by
  have : s :: (A ++ M ++ B) ++ [s] = (s :: A) ++ (M ++ (B ++ [s])) := by simp
  rw [this, h1, h2]; simp

theorem nd1 (s : Nat) (h1 : s :: A = P ++ [p]) (h2 : B ++ [s] = n :: Q)
    (hn : (s :: (A ++ B)).Nodup) : (P ++ p :: (n :: Q).dropLast).Nodup := by
  have : P ++ p :: (n :: Q).dropLast = s :: (A ++ B) := by
    rw [← h2, List.dropLast_concat]
    have : P ++ p :: B = (P ++ [p]) ++ B := by simp
    rw [this, ← h1]; simp
  rw [this]; exact hn

theorem nd2 (s : Nat) (h1 : s :: A = P ++ [p]) (h2 : B ++ [s] = n :: Q)
    (hn : (s :: (A ++ B)).Nodup) : ((P ++ [p]).tail ++ n :: Q).Nodup := by
  rw [← h1, ← h2]
  simp only [List.tail_cons]
  rw [← List.append_assoc]
  rw [List.nodup_cons] at hn
  rw [List.nodup_append]
  refine ⟨hn.2, by simp, ?_⟩
  intro a ha b hb
  simp at hb; subst hb
  intro hab; subst hab; exact hn.1 ha

end

theorem Cyc.nodup {l : Lba} {L : List Nat} (h : Cyc l L) : (l.binCount :: L).Nodup := by
  rw [List.nodup_cons]
  refine ⟨fun hm => Nat.lt_irrefl _ (h.lt _ hm), ?_⟩
  exact h.sorted.imp (fun hab => Nat.ne_of_lt hab)

/-- The pointer updates of both kinds of insertion. -/
theorem cyc_insert_gen {l : Lba} {A B P Q : List Nat} {p n x : Nat} (h : Cyc l (A ++ B))
    (h1 : l.binCount :: A = P ++ [p]) (h2 : B ++ [l.binCount] = n :: Q)
    (hx : x < l.binCount) (hxn : x ∉ A ++ B) (hs : (A ++ [x] ++ B).Pairwise (· < ·))
    {l' : Lba} (hc : l'.binCount = l.binCount)
    (a1 : l'.nx x = some n) (a2 : l'.nx p = some x) (a3 : ∀ k, k ≠ x → k ≠ p → l'.nx k = l.nx k)
    (b1 : l'.pv n = some x) (b2 : l'.pv x = some p)
    (b3 : ∀ k, k ≠ x → k ≠ n → l'.pv k = l.pv k) : Cyc l' (A ++ [x] ++ B) := by
  have hfull := full_eq l.binCount h1 h2 []
  have hfull' := full_eq l.binCount h1 h2 [x]
  simp only [List.append_nil, List.nil_append] at hfull
  refine ⟨hs, ?_, ?_, ?_⟩
  · intro k hk
    rw [hc]
    simp only [List.mem_append, List.mem_singleton] at hk
    rcases hk with (hk | hk) | hk
    · exact h.lt k (by simp [hk])
    · rw [hk]; exact hx
    · exact h.lt k (by simp [hk])
  · rw [hc, hfull']
    have hl := h.links
    rw [hfull] at hl
    refine links_insert hl (nd1 _ h1 h2 h.nodup) (nd2 _ h1 h2 h.nodup) ?_ a1 a2 a3 b1 b2 b3
    rw [← hfull]
    simp only [List.mem_append, List.mem_cons, not_or] at hxn ⊢
    refine ⟨⟨?_, hxn⟩, ?_⟩
    · omega
    · exact ⟨by omega, by simp⟩
  · intro k hk hkn
    rw [hc] at hk
    simp only [List.mem_append, List.mem_singleton, not_or] at hkn
    have hkp : k ≠ p := by
      intro hkp; subst hkp
      have : k ∈ l.binCount :: A := by rw [h1]; simp
      rcases List.mem_cons.1 this with h | h
      · omega
      · exact hkn.1.1 h
    rw [a3 k hkn.1.2 hkp]
    exact h.null k hk (by simp [hkn.1.1, hkn.2])

/-- Links around a position. -/
theorem cyc_links_at {l : Lba} {A B P Q : List Nat} {p n : Nat} (h : Cyc l (A ++ B))
    (h1 : l.binCount :: A = P ++ [p]) (h2 : B ++ [l.binCount] = n :: Q) :
    l.nx p = some n ∧ l.pv n = some p := by
  have hl := h.links
  have hfull := full_eq l.binCount h1 h2 []
  simp only [List.append_nil, List.nil_append] at hfull
  rw [hfull, links_append] at hl
  exact ⟨hl.2.1, hl.2.2.1⟩

theorem cyc_insertAfter {l : Lba} {A B P : List Nat} {p x : Nat} (h : Cyc l (A ++ B))
    (h1 : l.binCount :: A = P ++ [p])
    (hx : x < l.binCount) (hxn : x ∉ A ++ B) (hs : (A ++ [x] ++ B).Pairwise (· < ·)) :
    ∃ l', insertAfter l p x = .ok l' ∧ SameCore l l' ∧ Cyc l' (A ++ [x] ++ B) := by
  obtain ⟨n, Q, h2⟩ := exists_head l.binCount B
  obtain ⟨hnx, hpv⟩ := cyc_links_at h h1 h2
  have hp : p = l.binCount ∨ p ∈ A := by
    have : p ∈ l.binCount :: A := by rw [h1]; simp
    simpa using this
  have hxp : x ≠ p := by
    intro hxp; subst hxp
    rcases hp with hp | hp
    · omega
    · exact hxn (by simp [hp])
  have hn : n = l.binCount ∨ n ∈ B := by
    have : n ∈ B ++ [l.binCount] := by rw [h2]; simp
    simp at this; exact this.symm
  have hxne : x ≠ n := by
    intro hxp; subst hxp
    rcases hn with hp | hp
    · omega
    · exact hxn (by simp [hp])
  refine ⟨{ l with nx := upd (upd l.nx x (some n)) p (some x)
                   pv := upd (upd l.pv n (some x)) x (some p) },
    by simp only [insertAfter, hnx], ⟨rfl, rfl, rfl, rfl, rfl, rfl⟩, ?_⟩
  refine cyc_insert_gen h h1 h2 hx hxn hs rfl ?_ ?_ ?_ ?_ ?_ ?_
  · dsimp only; rw [upd_ne _ _ hxp, upd_same]
  · dsimp only; rw [upd_same]
  · intro k hk1 hk2; dsimp only; rw [upd_ne _ _ hk2, upd_ne _ _ hk1]
  · dsimp only; rw [upd_ne _ _ (Ne.symm hxne), upd_same]
  · dsimp only; rw [upd_same]
  · intro k hk1 hk2; dsimp only; rw [upd_ne _ _ hk1, upd_ne _ _ hk2]

theorem cyc_insertBefore {l : Lba} {A B Q : List Nat} {n x : Nat} (h : Cyc l (A ++ B))
    (h2 : B ++ [l.binCount] = n :: Q)
    (hx : x < l.binCount) (hxn : x ∉ A ++ B) (hs : (A ++ [x] ++ B).Pairwise (· < ·)) :
    ∃ l', insertBefore l n x = .ok l' ∧ SameCore l l' ∧ Cyc l' (A ++ [x] ++ B) := by
  obtain ⟨P, p, h1⟩ := exists_snoc l.binCount A
  obtain ⟨hnx, hpv⟩ := cyc_links_at h h1 h2
  have hp : p = l.binCount ∨ p ∈ A := by
    have : p ∈ l.binCount :: A := by rw [h1]; simp
    simpa using this
  have hxp : x ≠ p := by
    intro hxp; subst hxp
    rcases hp with hp | hp
    · omega
    · exact hxn (by simp [hp])
  have hn : n = l.binCount ∨ n ∈ B := by
    have : n ∈ B ++ [l.binCount] := by rw [h2]; simp
    simp at this; exact this.symm
  have hxne : x ≠ n := by
    intro hxp; subst hxp
    rcases hn with hp | hp
    · omega
    · exact hxn (by simp [hp])
  refine ⟨{ l with pv := upd (upd l.pv x (some p)) n (some x)
                   nx := upd (upd l.nx p (some x)) x (some n) },
    by simp only [insertBefore, hpv], ⟨rfl, rfl, rfl, rfl, rfl, rfl⟩, ?_⟩
  refine cyc_insert_gen h h1 h2 hx hxn hs rfl ?_ ?_ ?_ ?_ ?_ ?_
  · dsimp only; rw [upd_same]
  · dsimp only; rw [upd_ne _ _ (Ne.symm hxp), upd_same]
  · intro k hk1 hk2; dsimp only; rw [upd_ne _ _ hk1, upd_ne _ _ hk2]
  · dsimp only; rw [upd_same]
  · dsimp only; rw [upd_ne _ _ hxne, upd_same]
  · intro k hk1 hk2; dsimp only; rw [upd_ne _ _ hk2, upd_ne _ _ hk1]

theorem sorted_mem_split {A B : List Nat} {x : Nat} (h : (A ++ [x] ++ B).Pairwise (· < ·)) :
    (A ++ B).Pairwise (· < ·) ∧ x ∉ A ++ B := by
  simp only [List.append_assoc, List.singleton_append, List.pairwise_append,
    List.pairwise_cons, List.mem_cons] at h ⊢
  obtain ⟨h1, ⟨h2, h3⟩, h4⟩ := h
  refine ⟨⟨h1, h3, fun a ha b hb => h4 a ha b (Or.inr hb)⟩, ?_⟩
  intro hm
  rcases List.mem_append.1 hm with hm | hm
  · exact Nat.lt_irrefl _ (h4 x hm x (Or.inl rfl))
  · exact Nat.lt_irrefl _ (h2 x hm)

theorem cyc_remove {l : Lba} {L : List Nat} {x : Nat} (h : Cyc l L) (hd : l.debug = true)
    (hx : x ∈ L) :
    ∃ l' L', remove l x = .ok l' ∧ SameCore l l' ∧ Cyc l' L' ∧ ∀ k, k ∈ L' ↔ k ∈ L ∧ k ≠ x := by
  obtain ⟨A, B, hL⟩ := List.append_of_mem hx
  have hL' : L = A ++ [x] ++ B := by rw [hL]; simp
  subst hL'
  obtain ⟨P, p, h1⟩ := exists_snoc l.binCount A
  obtain ⟨n, Q, h2⟩ := exists_head l.binCount B
  have hxb := h.lt x hx
  obtain ⟨hs, hxn⟩ := sorted_mem_split h.sorted
  have hp : p = l.binCount ∨ p ∈ A := by
    have : p ∈ l.binCount :: A := by rw [h1]; simp
    simpa using this
  have hxp : x ≠ p := by
    intro hxp; subst hxp
    rcases hp with hp | hp
    · omega
    · exact hxn (by simp [hp])
  have hn : n = l.binCount ∨ n ∈ B := by
    have : n ∈ B ++ [l.binCount] := by rw [h2]; simp
    simp at this; exact this.symm
  have hxne : x ≠ n := by
    intro hxp; subst hxp
    rcases hn with hp | hp
    · omega
    · exact hxn (by simp [hp])
  have hfull := full_eq l.binCount h1 h2 [x]
  have hfull0 := full_eq l.binCount h1 h2 []
  simp only [List.append_nil, List.nil_append] at hfull0
  have hl := h.links
  rw [hfull] at hl
  have hat := hl
  rw [links_append] at hat
  obtain ⟨-, hpx, hxpv, hxnx, hnpv, -⟩ := hat
  have hndAB : (l.binCount :: (A ++ B)).Nodup := by
    rw [List.nodup_cons]
    refine ⟨fun hm => Nat.lt_irrefl l.binCount (h.lt _ ?_), hs.imp (fun hab => Nat.ne_of_lt hab)⟩
    simp only [List.mem_append] at hm ⊢
    rcases hm with hm | hm
    · exact Or.inl (Or.inl hm)
    · exact Or.inr hm
  refine ⟨{ l with nx := upd (upd l.nx p (some n)) x none
                   pv := upd (upd l.pv n (some p)) x none }, A ++ B, ?_,
    ⟨rfl, rfl, rfl, rfl, rfl, rfl⟩, ⟨hs, ?_, ?_, ?_⟩, ?_⟩
  · simp only [remove, hxnx, hxpv, hd, if_true]
  · intro k hk
    refine h.lt k ?_
    simp only [List.mem_append] at hk ⊢
    rcases hk with hm | hm
    · exact Or.inl (Or.inl hm)
    · exact Or.inr hm
  · dsimp only
    rw [hfull0]
    refine links_remove hl (nd1 _ h1 h2 hndAB) (nd2 _ h1 h2 hndAB) ?_ ?_ ?_ ?_ ?_
    · rw [← hfull0]
      simp only [List.mem_append, List.mem_cons, not_or] at hxn ⊢
      refine ⟨⟨?_, hxn⟩, ?_⟩
      · omega
      · exact ⟨by omega, by simp⟩
    · rw [upd_ne _ _ (Ne.symm hxp), upd_same]
    · intro k hk1 hk2; rw [upd_ne _ _ hk1, upd_ne _ _ hk2]
    · rw [upd_ne _ _ (Ne.symm hxne), upd_same]
    · intro k hk1 hk2; rw [upd_ne _ _ hk1, upd_ne _ _ hk2]
  · intro k hk hkn
    dsimp only at hk ⊢
    by_cases hkx : k = x
    · subst hkx; rw [upd_same]
    · rw [upd_ne _ _ hkx]
      have hkp : k ≠ p := by
        intro hkp; subst hkp
        rcases hp with hp | hp
        · omega
        · exact hkn (by simp [hp])
      rw [upd_ne _ _ hkp]
      refine h.null k hk ?_
      simp only [List.mem_append, not_or, List.mem_singleton] at hkn ⊢
      exact ⟨⟨hkn.1, hkx⟩, hkn.2⟩
  · intro k
    simp only [List.mem_append, List.mem_singleton]
    constructor
    · intro hk
      refine ⟨?_, ?_⟩
      · rcases hk with hm | hm
        · exact Or.inl (Or.inl hm)
        · exact Or.inr hm
      · intro hkx; subst hkx
        exact hxn (by simpa using hk)
    · rintro ⟨(hm | hm) | hm, hne⟩
      · exact Or.inl hm
      · exact absurd hm hne
      · exact Or.inr hm

/-- Inserting bin `h + 1` after bin `h`. -/
theorem cyc_after_mem {l : Lba} {L : List Nat} {h : Nat} (hc : Cyc l L) (hh : h ∈ L)
    (hlt : h + 1 < l.binCount) (hn : h + 1 ∉ L) :
    ∃ l' L', insertAfter l h (h + 1) = .ok l' ∧ SameCore l l' ∧ Cyc l' L' ∧
      ∀ k, k ∈ L' ↔ k ∈ L ∨ k = h + 1 := by
  obtain ⟨A, B, hL⟩ := List.append_of_mem hh
  have hL' : L = (A ++ [h]) ++ B := by rw [hL]; simp
  subst hL'
  have hs : ((A ++ [h]) ++ [h + 1] ++ B).Pairwise (· < ·) := by
    have := hc.sorted
    have e : (A ++ [h]) ++ [h + 1] ++ B = A ++ h :: (h + 1) :: B := by simp
    rw [e]
    simp only [List.append_assoc, List.singleton_append, List.pairwise_append,
      List.pairwise_cons, List.mem_cons] at this ⊢
    obtain ⟨h1, ⟨h2, h3⟩, h4⟩ := this
    have hB : ∀ b ∈ B, h + 1 < b := by
      intro b hb
      have := h2 b hb
      have hne : b ≠ h + 1 := by
        intro hbe; subst hbe; exact hn (by simp [hb])
      omega
    refine ⟨h1, ⟨?_, hB, h3⟩, ?_⟩
    · intro b hb
      rcases hb with hb | hb
      · omega
      · exact h2 b hb
    · intro a ha b hb
      have hah := h4 a ha h (Or.inl rfl)
      rcases hb with hb | hb | hb
      · omega
      · omega
      · exact h4 a ha b (Or.inr hb)
  obtain ⟨l', e1, e2, e3⟩ := cyc_insertAfter (P := l.binCount :: A) (p := h) hc (by simp) hlt hn hs
  refine ⟨l', _, e1, e2, e3, ?_⟩
  intro k
  simp only [List.mem_append, List.mem_singleton]
  constructor
  · rintro (((h | h) | h) | h)
    · exact Or.inl (Or.inl (Or.inl h))
    · exact Or.inl (Or.inl (Or.inr h))
    · exact Or.inr h
    · exact Or.inl (Or.inr h)
  · rintro (((h | h) | h) | h)
    · exact Or.inl (Or.inl (Or.inl h))
    · exact Or.inl (Or.inl (Or.inr h))
    · exact Or.inr h
    · exact Or.inl (Or.inr h)

/-- Inserting bin `x` before bin `x + 1`, which is active or the sentinel. -/
theorem cyc_before_mem {l : Lba} {L : List Nat} {x : Nat} (hc : Cyc l L)
    (hh : x + 1 ∈ L ∨ x + 1 = l.binCount) (hn : x ∉ L) :
    ∃ l' L', insertBefore l (x + 1) x = .ok l' ∧ SameCore l l' ∧ Cyc l' L' ∧
      ∀ k, k ∈ L' ↔ k ∈ L ∨ k = x := by
  have hsplit : ∃ A B Q, L = A ++ B ∧ B ++ [l.binCount] = (x + 1) :: Q ∧
      (∀ a ∈ A, a < x + 1) ∧ (∀ b ∈ B, x + 1 ≤ b) := by
    rcases hh with hh | hh
    · obtain ⟨A, B, hL⟩ := List.append_of_mem hh
      have hso := hc.sorted
      rw [hL] at hso
      simp only [List.pairwise_append, List.pairwise_cons] at hso
      refine ⟨A, (x + 1) :: B, B ++ [l.binCount], hL, rfl, ?_, ?_⟩
      · intro a ha; exact hso.2.2 a ha (x + 1) (by simp)
      · intro b hb
        rcases List.mem_cons.1 hb with h | h
        · omega
        · have := hso.2.1.1 b h; omega
    · refine ⟨L, [], [], by simp, by simp [hh], ?_, by simp⟩
      intro a ha; rw [hh]; exact hc.lt a ha
  obtain ⟨A, B, Q, hL, hQ, hA, hB⟩ := hsplit
  subst hL
  have hxlt : x < l.binCount := by
    rcases hh with hh | hh
    · have := hc.lt _ hh; omega
    · omega
  have hs : (A ++ [x] ++ B).Pairwise (· < ·) := by
    have := hc.sorted
    simp only [List.append_assoc, List.singleton_append, List.pairwise_append,
      List.pairwise_cons, List.mem_cons] at this ⊢
    obtain ⟨h1, h3, h4⟩ := this
    refine ⟨h1, ⟨fun b hb => hB b hb, h3⟩, ?_⟩
    intro a ha b hb
    have := hA a ha
    have hne : a ≠ x := by
      intro hae; subst hae; exact hn (by simp [ha])
    rcases hb with hb | hb
    · omega
    · exact h4 a ha b hb
  obtain ⟨l', e1, e2, e3⟩ := cyc_insertBefore hc hQ hxlt hn hs
  refine ⟨l', _, e1, e2, e3, ?_⟩
  intro k
  simp only [List.mem_append, List.mem_singleton]
  constructor
  · rintro ((h | h) | h)
    · exact Or.inl (Or.inl h)
    · exact Or.inr h
    · exact Or.inl (Or.inr h)
  · rintro ((h | h) | h)
    · exact Or.inl (Or.inl h)
    · exact Or.inr h
    · exact Or.inl (Or.inr h)

theorem links_nx_some {nx pv : Nat → Option Nat} : ∀ {l : List Nat} {k : Nat},
    Links nx pv l → k ∈ l.dropLast → nx k ≠ none
  | [], _, _, h => by simp at h
  | [_], _, _, h => by simp at h
  | a :: b :: l, k, h, hk => by
    obtain ⟨h1, h2, h3⟩ := h
    simp only [List.dropLast, List.mem_cons] at hk
    rcases hk with hk | hk
    · subst hk; rw [h1]; simp
    · exact links_nx_some h3 hk

theorem Cyc.nx_none {l : Lba} {L : List Nat} (h : Cyc l L) {k : Nat} (hk : k ≤ l.binCount) :
    l.nx k = none ↔ k < l.binCount ∧ k ∉ L := by
  constructor
  · intro hn
    refine Classical.byContradiction fun hc => ?_
    refine links_nx_some h.links (k := k) ?_ hn
    rw [List.dropLast_concat]
    by_cases hkb : k = l.binCount
    · subst hkb; simp
    · have : k ∈ L := Classical.byContradiction fun hk2 => hc ⟨by omega, hk2⟩
      simp [this]
  · rintro ⟨h1, h2⟩; exact h.null k h1 h2

theorem Cyc.last {l : Lba} {L : List Nat} (h : Cyc l L) :
    l.pv l.binCount = some (match L.getLast? with | some q => q | none => l.binCount) := by
  obtain ⟨P, p, h1⟩ := exists_snoc l.binCount L
  have h' : Cyc l (L ++ []) := by simpa using h
  have := (cyc_links_at h' h1 (Q := []) (n := l.binCount) (by simp)).2
  rw [this]
  have hp : (l.binCount :: L).getLast? = some p := by rw [h1]; simp
  rw [List.getLast?_cons] at hp
  cases hg : L.getLast? with
  | none => rw [hg] at hp; simpa using hp.symm
  | some q => rw [hg] at hp; simpa using hp.symm

/-- The invariant on the active queue: it holds exactly the bins that have blocks. -/
def Act (l : Lba) : Prop :=
  ∃ L, Cyc l L ∧ ∀ k, k ∈ L ↔ k < l.binCount ∧ l.bins k ≠ []

theorem Cyc.congr {l l' : Lba} {L : List Nat} (h : Cyc l L) (h1 : l'.nx = l.nx) (h2 : l'.pv = l.pv)
    (h3 : l'.binCount = l.binCount) : Cyc l' L := by
  obtain ⟨a, b, c, d⟩ := h
  exact ⟨a, by rw [h3]; exact b, by rw [h1, h2, h3]; exact c, by rw [h1, h3]; exact d⟩

theorem idx_succ {bc bb u : Nat} (hb : 0 < bb) (hc : bc ≤ bb) :
    (u + 1) * bc / bb = u * bc / bb ∨ (u + 1) * bc / bb = u * bc / bb + 1 := by
  have h1 : u * bc / bb ≤ (u + 1) * bc / bb :=
    Nat.div_le_div_right (Nat.mul_le_mul_right _ (Nat.le_succ u))
  have h2 : (u + 1) * bc / bb ≤ u * bc / bb + 1 := by
    rw [← Nat.add_div_right _ hb]
    refine Nat.div_le_div_right ?_
    rw [Nat.succ_mul]; omega
  omega

theorem idx_le {bc bb u : Nat} (hb : 0 < bb) (hu : u ≤ bb) : u * bc / bb ≤ bc := by
  have : u * bc / bb ≤ bb * bc / bb := Nat.div_le_div_right (Nat.mul_le_mul_right _ hu)
  rwa [Nat.mul_div_cancel_left _ hb] at this

theorem idx_lt {bc bb u : Nat} (hb : 0 < bb) (hbc : 0 < bc) (hu : u < bb) : u * bc / bb < bc := by
  rw [Nat.div_lt_iff_lt_mul hb, Nat.mul_comm bc bb]
  exact Nat.mul_lt_mul_of_pos_right hu hbc

/-- Everything known about a reachable state in the good case. -/
structure Inv2 (us br : Nat) (w : World) : Prop where
  one : Inv1 true us br w
  two : 2 ≤ w.l.blockBufs
  bin : 1 ≤ w.l.binCount
  act : Act w.l

theorem inv2_init {us br : Nat} {l : Lba} (h : create true us br = some l) (hbr : 1 ≤ br)
    (htwo : 2 ≤ (blockSize - blockHdr) / (us + bufHdr)) :
    Inv2 us br { l, live := [], mapped := [] } := by
  have h1 := inv1_init h
  have hb : 2 ≤ l.blockBufs := by have := h1.bufs; dsimp only at this; omega
  refine ⟨h1, hb, ?_, ?_⟩
  · have := h1.binc; dsimp only at this ⊢; omega
  · unfold create at h
    split at h
    · exact nomatch h
    · dsimp only at h
      split at h
      · exact nomatch h
      · simp only [Option.some.injEq] at h
        subst h
        refine ⟨[], ⟨List.Pairwise.nil, by simp, ?_, ?_⟩, by simp⟩
        · simp [Links]
        · intro k hk _
          dsimp only at hk ⊢
          rw [if_neg (Nat.ne_of_lt hk)]

theorem head_last_singleton {l : List Nat} {b : Nat} (hn : l.Nodup) (hne : l ≠ [])
    (h : ¬ (l.head? ≠ some b ∨ l.getLast? ≠ some b)) : l = [b] := by
  rw [not_or] at h
  have h1 : l.head? = some b := Classical.byContradiction fun hc => h.1 hc
  have h2 : l.getLast? = some b := Classical.byContradiction fun hc => h.2 hc
  cases l with
  | nil => exact absurd rfl hne
  | cons a t =>
    simp only [List.head?_cons, Option.some.injEq] at h1
    subst h1
    cases t with
    | nil => rfl
    | cons c t' =>
      exfalso
      have h3 : (c :: t').getLast? = some a := by
        rw [List.getLast?_cons_cons] at h2; exact h2
      exact (List.nodup_cons.1 hn).1 (List.mem_of_getLast? h3)

/-- The bins of a state after `moveBlock`. -/
theorem moveBlock_bins {l : Lba} {b new : Nat} (hne : new ≠ (l.blk b).binIndex) (k : Nat) :
    (moveBlock l b new).bins k =
      if k = new then l.bins new ++ [b]
      else if k = (l.blk b).binIndex then (l.bins (l.blk b).binIndex).erase b
      else l.bins k := by
  simp only [moveBlock]
  by_cases h1 : k = new
  · subst h1; rw [upd_same, upd_ne _ _ hne, if_pos rfl]
  · rw [upd_ne _ _ h1, if_neg h1]
    by_cases h2 : k = (l.blk b).binIndex
    · subst h2; rw [upd_same, if_pos rfl]
    · rw [upd_ne _ _ h2, if_neg h2]

theorem allocBuf_act {l : Lba} {b : Nat} {mapped : List Nat} (hd : l.debug = true)
    (hbb : 2 ≤ l.blockBufs) (hle : l.binCount ≤ l.blockBufs)
    (hb : b ∈ mapped) (hloc : LocOk l.bins l.blk mapped) (hok : BlockOk l (l.blk b))
    (hact : Act l) (hlt : (l.blk b).binIndex < l.binCount) :
    ∃ i l', allocBuf l b = .ok (some (b, i), l') ∧ Act l' := by
  obtain ⟨L, hcyc, hmem⟩ := hact
  obtain ⟨hnd, hlt2, hcap, hcount, hbin⟩ := hok
  have hbpos : 0 < l.blockBufs := by omega
  have hused : (l.blk b).used < l.blockBufs := by
    refine Classical.byContradiction fun hc => ?_
    have : (l.blk b).used = l.blockBufs := by omega
    rw [hbin, this, Nat.mul_div_cancel_left _ hbpos] at hlt
    omega
  have hbin_mem : b ∈ l.bins (l.blk b).binIndex := (hloc.1 _ _).2 ⟨hb, rfl⟩
  have holdL : (l.blk b).binIndex ∈ L := by
    rw [hmem]
    refine ⟨hlt, fun he => ?_⟩
    rw [he] at hbin_mem; exact nomatch hbin_mem
  -- the picked buffer
  have hpick : ∃ i k1, pickBuf l.blockBufs (l.blk b) = some (i, k1) ∧
      k1.binIndex = (l.blk b).binIndex := by
    unfold pickBuf
    cases hf : (l.blk b).free with
    | cons i rest => exact ⟨i, _, rfl, rfl⟩
    | nil =>
      rw [hf] at hcount
      simp only [List.length_nil] at hcount
      have : (l.blk b).inited < l.blockBufs := by omega
      simp only [if_pos this]
      exact ⟨_, _, rfl, rfl⟩
  obtain ⟨i, k1, hpick, hk1⟩ := hpick
  unfold allocBuf
  dsimp only
  rw [hpick]
  dsimp only
  by_cases hne : ((l.blk b).used + 1) * l.binCount / l.blockBufs = (l.blk b).binIndex
  · rw [if_pos hne]
    exact ⟨i, _, rfl, L, hcyc.congr rfl rfl rfl, hmem⟩
  · rw [if_neg hne]
    have hnew : ((l.blk b).used + 1) * l.binCount / l.blockBufs = (l.blk b).binIndex + 1 := by
      rcases idx_succ (bc := l.binCount) (u := (l.blk b).used) hbpos hle with h | h
      · rw [h] at hne; exact absurd hbin.symm hne
      · rw [hbin]; exact h
    rw [hnew]
    generalize hl1 : ({ l with blk := upd l.blk b { k1 with used := k1.used + 1 } } : Lba) = l1
    have hl1b : l1.bins = l.bins ∧ (l1.blk b).binIndex = (l.blk b).binIndex ∧
        l1.binCount = l.binCount ∧ l1.debug = true ∧ l1.nx = l.nx ∧ l1.pv = l.pv := by
      subst hl1
      dsimp only
      refine ⟨rfl, ?_, rfl, hd, rfl, rfl⟩
      rw [upd_same]; exact hk1
    obtain ⟨f1, f2, f3, f4, f5, f6⟩ := hl1b
    have hcyc2 : Cyc (moveBlock l1 b ((l.blk b).binIndex + 1)) L := by
      refine hcyc.congr ?_ ?_ ?_ <;> simp only [moveBlock]
      · exact f5
      · exact f6
      · exact f3
    have hbins2 := fun k => moveBlock_bins (l := l1) (b := b) (new := (l.blk b).binIndex + 1)
      (by rw [f2]; omega) k
    generalize hl2 : moveBlock l1 b ((l.blk b).binIndex + 1) = l2 at hcyc2 hbins2
    have g1 : l2.binCount = l.binCount ∧ l2.debug = true := by
      subst hl2; simp only [moveBlock]; exact ⟨f3, f4⟩
    obtain ⟨g1, g2⟩ := g1
    -- third step
    have h3 : ∃ l3 L3, (if l2.nx ((l.blk b).binIndex + 1) = none then
        insertAfter l2 (l.blk b).binIndex ((l.blk b).binIndex + 1) else .ok l2) = .ok l3 ∧
        SameCore l2 l3 ∧ Cyc l3 L3 ∧
        ∀ k, k ∈ L3 ↔ k ∈ L ∨ (k = (l.blk b).binIndex + 1 ∧ k < l.binCount) := by
      have hnn := hcyc2.nx_none (k := (l.blk b).binIndex + 1) (by omega)
      by_cases hc : l2.nx ((l.blk b).binIndex + 1) = none
      · rw [if_pos hc]
        obtain ⟨hc1, hc2⟩ := hnn.1 hc
        obtain ⟨l3, L3, e1, e2, e3, e4⟩ := cyc_after_mem hcyc2 holdL hc1 hc2
        refine ⟨l3, L3, e1, e2, e3, ?_⟩
        intro k
        rw [e4]
        constructor
        · rintro (h | h)
          · exact Or.inl h
          · exact Or.inr ⟨h, by omega⟩
        · rintro (h | h)
          · exact Or.inl h
          · exact Or.inr h.1
      · rw [if_neg hc]
        refine ⟨l2, L, rfl, SameCore.refl _, hcyc2, ?_⟩
        intro k
        constructor
        · exact Or.inl
        · rintro (h | ⟨h, hlt⟩)
          · exact h
          · subst h
            exact Classical.byContradiction fun hkn => hc (hnn.2 ⟨by omega, hkn⟩)
    obtain ⟨l3, L3, e1, c3, hcyc3, hmem3⟩ := h3
    rw [e1]
    dsimp only
    have hold3 : (l.blk b).binIndex ∈ L3 := by rw [hmem3]; exact Or.inl holdL
    have hb3 : l3.bins (l.blk b).binIndex = (l.bins (l.blk b).binIndex).erase b := by
      rw [c3.bins, hbins2, if_neg (by omega), if_pos f2.symm, f1, f2]
    -- membership in the final list
    have hfin : ∀ k, k ≠ (l.blk b).binIndex →
        ((k ∈ L ∨ (k = (l.blk b).binIndex + 1 ∧ k < l.binCount)) ↔
          k < l.binCount ∧ l3.bins k ≠ []) := by
      intro k hk
      rw [c3.bins, hbins2, f1, f2, hmem]
      by_cases hk1 : k = (l.blk b).binIndex + 1
      · rw [if_pos hk1]
        constructor
        · rintro (h | h)
          · exact ⟨h.1, by simp⟩
          · exact ⟨h.2, by simp⟩
        · intro h; exact Or.inr ⟨hk1, h.1⟩
      · rw [if_neg hk1, if_neg hk]
        constructor
        · rintro (h | h)
          · exact h
          · exact absurd h.1 hk1
        · intro h; exact Or.inl h
    by_cases hemp : l3.bins (l.blk b).binIndex = []
    · rw [if_pos hemp]
      obtain ⟨l4, L4, r1, r2, r3, r4⟩ := cyc_remove hcyc3 (c3.debug.trans g2) hold3
      rw [r1]
      refine ⟨i, l4, rfl, L4, r3, ?_⟩
      intro k
      rw [r4, hmem3, r2.binCount, r2.bins, c3.binCount, g1]
      by_cases hk : k = (l.blk b).binIndex
      · subst hk; simp [hemp]
      · rw [hfin k hk]; simp [hk]
    · rw [if_neg hemp]
      refine ⟨i, l3, rfl, L3, hcyc3, ?_⟩
      intro k
      rw [hmem3, c3.binCount, g1]
      by_cases hk : k = (l.blk b).binIndex
      · subst hk; simp [hemp, holdL, hlt]
      · exact hfin k hk

theorem freeBuf_act {l : Lba} {b i : Nat} {mapped : List Nat} (hd : l.debug = true)
    (hbb : 2 ≤ l.blockBufs) (hbc : 1 ≤ l.binCount) (hle : l.binCount ≤ l.blockBufs)
    (hb : b ∈ mapped) (hloc : LocOk l.bins l.blk mapped) (hok : BlockOk l (l.blk b))
    (hact : Act l) (hused : 1 ≤ (l.blk b).used) :
    ∃ un l', freeBuf l b i = .ok (un, l') ∧ Act l' := by
  obtain ⟨L, hcyc, hmem⟩ := hact
  obtain ⟨hnd, hlt2, hcap, hcount, hbin⟩ := hok
  have hbpos : 0 < l.blockBufs := by omega
  have hidx : (l.blk b).binIndex ≤ l.binCount := by rw [hbin]; exact idx_le hbpos (by omega)
  have hbin_mem : b ∈ l.bins (l.blk b).binIndex := (hloc.1 _ _).2 ⟨hb, rfl⟩
  have holdne : l.bins (l.blk b).binIndex ≠ [] := by
    intro he; rw [he] at hbin_mem; exact nomatch hbin_mem
  unfold freeBuf
  dsimp only
  by_cases hcond : (l.blk b).used - 1 = 0 ∧ l.bins 0 ≠ [] ∧
      ((l.bins 0).head? ≠ some b ∨ (l.bins 0).getLast? ≠ some b)
  · rw [if_pos hcond]
    have hlt : (l.blk b).binIndex < l.binCount := by
      rw [hbin]; exact idx_lt hbpos hbc (by omega)
    have holdL : (l.blk b).binIndex ∈ L := (hmem _).2 ⟨hlt, holdne⟩
    generalize hl1 : ({ l with blk := upd l.blk b { l.blk b with used := (l.blk b).used - 1 } } : Lba)
      = l1
    have hl1b : l1.bins = l.bins ∧ (l1.blk b).binIndex = (l.blk b).binIndex ∧
        l1.binCount = l.binCount ∧ l1.debug = true ∧ l1.nx = l.nx ∧ l1.pv = l.pv := by
      subst hl1
      dsimp only
      refine ⟨rfl, ?_, rfl, hd, rfl, rfl⟩
      rw [upd_same]
    obtain ⟨f1, f2, f3, f4, f5, f6⟩ := hl1b
    unfold blockFree
    dsimp only
    rw [f2, f1]
    simp only [upd_same]
    generalize hl2 : ({ l1 with
      bins := upd l.bins (l.blk b).binIndex ((l.bins (l.blk b).binIndex).erase b) } : Lba) = l2
    have hl2b : l2.bins = upd l.bins (l.blk b).binIndex ((l.bins (l.blk b).binIndex).erase b) ∧
        l2.binCount = l.binCount ∧ l2.debug = true ∧ l2.nx = l.nx ∧ l2.pv = l.pv := by
      subst hl2; exact ⟨rfl, f3, f4, f5, f6⟩
    obtain ⟨g1, g2, g3, g4, g5⟩ := hl2b
    have hcyc2 : Cyc l2 L := hcyc.congr g4 g5 g2
    by_cases hemp : (l.bins (l.blk b).binIndex).erase b = []
    · rw [if_pos hemp]
      obtain ⟨l4, L4, r1, r2, r3, r4⟩ := cyc_remove hcyc2 g3 holdL
      rw [r1]
      refine ⟨true, l4, rfl, L4, r3, ?_⟩
      intro k
      rw [r4, hmem, r2.binCount, r2.bins, g1, g2]
      by_cases hk : k = (l.blk b).binIndex
      · subst hk; simp [upd_same, hemp]
      · rw [upd_ne _ _ hk]; simp [hk]
    · rw [if_neg hemp]
      refine ⟨true, l2, rfl, L, hcyc2, ?_⟩
      intro k
      rw [hmem, g1, g2]
      by_cases hk : k = (l.blk b).binIndex
      · subst hk; simp [upd_same, hemp, holdne]
      · rw [upd_ne _ _ hk]
  · rw [if_neg hcond]
    by_cases hne : ((l.blk b).used - 1) * l.binCount / l.blockBufs = (l.blk b).binIndex
    · rw [if_pos hne]
      exact ⟨false, _, rfl, L, hcyc.congr rfl rfl rfl, hmem⟩
    · rw [if_neg hne]
      obtain ⟨new, hnewdef⟩ : ∃ new, ((l.blk b).used - 1) * l.binCount / l.blockBufs = new := ⟨_, rfl⟩
      have hold : (l.blk b).binIndex = new + 1 := by
        have h := idx_succ (bc := l.binCount) (u := (l.blk b).used - 1) hbpos hle
        rw [show (l.blk b).used - 1 + 1 = (l.blk b).used by omega, ← hbin, hnewdef] at h
        rw [hnewdef] at hne
        omega
      rw [hnewdef]
      generalize hl1 : ({ l with blk := upd l.blk b { l.blk b with
        used := (l.blk b).used - 1, free := i :: (l.blk b).free } } : Lba) = l1
      have hl1b : l1.bins = l.bins ∧ (l1.blk b).binIndex = (l.blk b).binIndex ∧
          l1.binCount = l.binCount ∧ l1.debug = true ∧ l1.nx = l.nx ∧ l1.pv = l.pv := by
        subst hl1
        dsimp only
        refine ⟨rfl, ?_, rfl, hd, rfl, rfl⟩
        rw [upd_same]
      obtain ⟨f1, f2, f3, f4, f5, f6⟩ := hl1b
      have hcyc2 : Cyc (moveBlock l1 b new) L := by
        refine hcyc.congr ?_ ?_ ?_ <;> simp only [moveBlock]
        · exact f5
        · exact f6
        · exact f3
      have hbins2 := fun k => moveBlock_bins (l := l1) (b := b) (new := new)
        (by rw [f2]; omega) k
      generalize hl2 : moveBlock l1 b new = l2 at hcyc2 hbins2
      have g1 : l2.binCount = l.binCount ∧ l2.debug = true := by
        subst hl2; simp only [moveBlock]; exact ⟨f3, f4⟩
      obtain ⟨g1, g2⟩ := g1
      rw [f2, hold] at hbins2
      rw [hold] at holdne hidx hbin_mem ⊢
      have h3 : ∃ l3 L3, (if l2.nx new = none then
          insertBefore l2 (new + 1) new else .ok l2) = .ok l3 ∧
          SameCore l2 l3 ∧ Cyc l3 L3 ∧ ∀ k, k ∈ L3 ↔ k ∈ L ∨ k = new := by
        have hnn := hcyc2.nx_none (k := new) (by omega)
        by_cases hc : l2.nx new = none
        · rw [if_pos hc]
          obtain ⟨hc1, hc2⟩ := hnn.1 hc
          obtain ⟨l3, L3, e1, e2, e3, e4⟩ := cyc_before_mem hcyc2 (x := new) (by
            by_cases he : new + 1 = l.binCount
            · exact Or.inr (by rw [g1]; exact he)
            · exact Or.inl ((hmem _).2 ⟨by omega, holdne⟩)) hc2
          exact ⟨l3, L3, e1, e2, e3, e4⟩
        · rw [if_neg hc]
          refine ⟨l2, L, rfl, SameCore.refl _, hcyc2, ?_⟩
          intro k
          constructor
          · exact Or.inl
          · rintro (h | h)
            · exact h
            · subst h
              exact Classical.byContradiction fun hkn => hc (hnn.2 ⟨by omega, hkn⟩)
      obtain ⟨l3, L3, e1, c3, hcyc3, hmem3⟩ := h3
      rw [e1]
      dsimp only
      have hb3 : l3.bins (new + 1) = (l.bins (new + 1)).erase b := by
        rw [c3.bins, hbins2, if_neg (by omega), if_pos rfl, f1]
      have hfin : ∀ k, k ≠ new + 1 →
          ((k ∈ L ∨ k = new) ↔ k < l.binCount ∧ l3.bins k ≠ []) := by
        intro k hk
        rw [c3.bins, hbins2, f1, hmem]
        by_cases hk1 : k = new
        · rw [if_pos hk1]
          constructor
          · intro _; exact ⟨by omega, by simp⟩
          · intro h; exact Or.inr hk1
        · rw [if_neg hk1, if_neg hk]
          constructor
          · rintro (h | h)
            · exact h
            · exact absurd h hk1
          · intro h; exact Or.inl h
      rw [c3.binCount, g1]
      by_cases hemp : l3.bins (new + 1) = [] ∧ new + 1 ≠ l.binCount
      · rw [if_pos hemp]
        have hold3 : new + 1 ∈ L3 := by
          rw [hmem3]; exact Or.inl ((hmem _).2 ⟨by omega, holdne⟩)
        obtain ⟨l4, L4, r1, r2, r3, r4⟩ := cyc_remove hcyc3 (c3.debug.trans g2) hold3
        rw [r1]
        refine ⟨false, l4, rfl, L4, r3, ?_⟩
        intro k
        rw [r4, hmem3, r2.binCount, r2.bins, c3.binCount, g1]
        by_cases hk : k = new + 1
        · subst hk; simp [hemp.1]
        · rw [hfin k hk]; simp [hk]
      · rw [if_neg hemp]
        refine ⟨false, l3, rfl, L3, hcyc3, ?_⟩
        intro k
        rw [hmem3, c3.binCount, g1]
        by_cases hk : k = new + 1
        · subst hk
          rw [hmem]
          by_cases he : new + 1 = l.binCount
          · constructor
            · rintro (h | h)
              · omega
              · omega
            · intro h; omega
          · have : l3.bins (new + 1) ≠ [] := fun h => hemp ⟨h, he⟩
            constructor
            · rintro (h | h)
              · exact ⟨h.1, this⟩
              · omega
            · intro h; exact Or.inl ⟨h.1, holdne⟩
        · exact hfin k hk

/-- In the good case an allocation finds an active bin exactly when some block has room. -/
theorem alloc_act {us br : Nat} {w : World} (h : Inv2 us br w) (fresh : Option Nat) :
    (∃ isNew r l', alloc w.l fresh = .ok (isNew, r, l') ∧ Act l' ∧ (r = none → fresh = none) ∧
      (isNew = true → ∀ b ∈ w.mapped, ∀ i, i < w.l.blockBufs → (b, i) ∈ w.live)) := by
  obtain ⟨hone, htwo, hbin, hact⟩ := h
  have hle : w.l.binCount ≤ w.l.blockBufs := by have := hone.binc; omega
  have hbpos : 0 < w.l.blockBufs := by omega
  obtain ⟨L, hcyc, hmem⟩ := hact
  have hlast := hcyc.last
  unfold alloc
  rw [hlast]
  cases hg : L.getLast? with
  | none =>
    dsimp only
    rw [if_pos rfl]
    have hL : L = [] := List.getLast?_eq_none_iff.1 hg
    subst hL
    have hfull : ∀ b ∈ w.mapped, ∀ i, i < w.l.blockBufs → (b, i) ∈ w.live := by
      intro b hb i hi
      have hbk := hone.blk b hb
      have hbm := (hone.loc _ b).2 ⟨hb, rfl⟩
      have hidx : (w.l.blk b).binIndex ≤ w.l.binCount := by
        rw [hbk.bin]; exact idx_le hbpos (by have := hbk.cap; have := hbk.count; omega)
      have hnlt : ¬ (w.l.blk b).binIndex < w.l.binCount := by
        intro hlt
        have : (w.l.blk b).binIndex ∈ ([] : List Nat) := (hmem _).2 ⟨hlt, by
          intro he; rw [he] at hbm; exact nomatch hbm⟩
        exact nomatch this
      have husedge : w.l.blockBufs ≤ (w.l.blk b).used := by
        refine Classical.byContradiction fun hc => hnlt ?_
        rw [hbk.bin]; exact idx_lt hbpos hbin (by omega)
      have hc1 := hbk.cap
      have hc2 := hbk.count
      have hf : (w.l.blk b).free = [] := by
        apply List.eq_nil_of_length_eq_zero; omega
      rw [hone.live]
      exact ⟨hb, by omega, by rw [hf]; simp⟩
    cases fresh with
    | none =>
      refine ⟨false, none, w.l, rfl, ⟨[], hcyc, hmem⟩, fun _ => rfl, fun h => nomatch h⟩
    | some f =>
      unfold blockAlloc
      dsimp only
      have hib : initialBin w.l < w.l.binCount := by
        unfold initialBin
        have := idx_lt (u := 1) hbpos hbin (by omega)
        rwa [Nat.one_mul] at this
      have hnone : w.l.nx (initialBin w.l) = none := hcyc.null _ hib (by simp)
      have hemp : w.l.bins (initialBin w.l) = [] := by
        refine Classical.byContradiction fun hc => ?_
        exact nomatch (hmem _).2 ⟨hib, hc⟩
      rw [if_pos hnone]
      generalize hl1 : ({ w.l with
        blk := upd w.l.blk f { binIndex := initialBin w.l, free := [], inited := 1, used := 1 }
        bins := upd w.l.bins (initialBin w.l) (w.l.bins (initialBin w.l) ++ [f]) } : Lba) = l1
      have hl1b : l1.bins = upd w.l.bins (initialBin w.l) (w.l.bins (initialBin w.l) ++ [f]) ∧
          l1.binCount = w.l.binCount ∧ l1.nx = w.l.nx ∧ l1.pv = w.l.pv := by
        subst hl1; exact ⟨rfl, rfl, rfl, rfl⟩
      obtain ⟨f1, f2, f3, f4⟩ := hl1b
      have hcyc1 : Cyc l1 ([] ++ []) := hcyc.congr f3 f4 f2
      obtain ⟨l2, e1, e2, e3⟩ := cyc_insertAfter (P := []) (p := l1.binCount)
        (x := initialBin w.l) hcyc1 (by simp) (by rw [f2]; exact hib) (by simp) (by simp)
      rw [← f2, e1]
      refine ⟨true, some (f, 0), l2, rfl, ⟨[initialBin w.l], e3, ?_⟩, (fun h => nomatch h),
        fun _ => hfull⟩
      intro k
      rw [e2.bins, f1, e2.binCount, f2, List.mem_singleton]
      by_cases hk : k = initialBin w.l
      · subst hk; rw [upd_same]; simp [hib]
      · rw [upd_ne _ _ hk]
        constructor
        · intro h; exact absurd h hk
        · intro h; exact nomatch (hmem k).2 h
  | some q =>
    dsimp only
    have hqL : q ∈ L := List.mem_of_getLast? hg
    obtain ⟨hqlt, hqne⟩ := (hmem q).1 hqL
    rw [if_neg (by omega)]
    cases hbl : (w.l.bins q).getLast? with
    | none => exact absurd (List.getLast?_eq_none_iff.1 hbl) hqne
    | some b =>
      dsimp only
      obtain ⟨hbm, hbq⟩ := (hone.loc q b).1 (List.mem_of_getLast? hbl)
      obtain ⟨i, l', e1, e2⟩ := allocBuf_act hone.debug htwo hle hbm ⟨hone.loc, hone.nd⟩
        (hone.blk b hbm) ⟨L, hcyc, hmem⟩ (by rw [hbq]; exact hqlt)
      rw [e1]
      exact ⟨false, some (b, i), l', rfl, e2, (fun h => nomatch h), fun h => nomatch h⟩

theorem inv2_step {us br : Nat} {w : World} {op : Op} (h : Inv2 us br w) (hok : op.ok w) :
    ∃ r w', step w op = .ok (r, w') ∧ Inv2 us br w' := by
  have key : ∃ r w', step w op = .ok (r, w') ∧ Act w'.l := by
    cases op with
    | alloc fresh =>
      obtain ⟨isNew, r, l', e1, e2, _⟩ := alloc_act h fresh
      simp only [step, e1]
      exact ⟨_, _, rfl, e2⟩
    | free x =>
      obtain ⟨b, i⟩ := x
      obtain ⟨hone, htwo, hbin, hact⟩ := h
      have hle : w.l.binCount ≤ w.l.blockBufs := by have := hone.binc; omega
      obtain ⟨hbm, hi, hif⟩ := (hone.live b i).1 hok
      have hbk := hone.blk b hbm
      have hused : 1 ≤ (w.l.blk b).used := by
        have := nodup_lt_length (w.l.blk b).inited (i :: (w.l.blk b).free)
          (List.nodup_cons.2 ⟨hif, hbk.nd⟩)
          (by intro j hj; rcases List.mem_cons.1 hj with h | h
              · subst h; exact hi
              · exact hbk.lt j h)
        simp only [List.length_cons] at this
        have := hbk.count
        omega
      obtain ⟨un, l', e1, e2⟩ := freeBuf_act (i := i) hone.debug htwo hbin hle hbm
        ⟨hone.loc, hone.nd⟩ hbk hact hused
      simp only [step, e1]
      exact ⟨_, _, rfl, e2⟩
  obtain ⟨r, w', e, ha⟩ := key
  have h1 := (inv1_step h.one hok e).1
  refine ⟨r, w', e, h1, ?_, ?_, ha⟩
  · have a := h1.bufs; have b := h.one.bufs; have c := h.two; omega
  · have a := h1.bufs; have b := h.one.bufs; have c := h.two
    have d := h1.binc; have e := h.one.binc; have f := h.bin; omega

theorem inv2_reach {us br : Nat} {w : World} (h : Reach true us br w) (hbr : 1 ≤ br)
    (htwo : 2 ≤ (blockSize - blockHdr) / (us + bufHdr)) : Inv2 us br w := by
  induction h with
  | init l hl => exact inv2_init hl hbr htwo
  | step _ hok hs ih =>
    obtain ⟨r', w'', e, hi⟩ := inv2_step ih hok
    rw [e] at hs
    simp only [Res.ok.injEq, Prod.mk.injEq] at hs
    rw [← hs.2]; exact hi

/-! ## C07

The state of the example at the end of LbaProps meets the hypotheses below. -/

/-- C07 (missing: builds without NGX_DEBUG, and blocks that hold a single buffer; for those see
`release_maps_too_much`, `single_buffer_crash`, `single_buffer_fails`): a call that maps a new
block is made only when every buffer of every mapped block is live. -/
theorem new_block_only_when_full_partial {us br : Nat} {w w' : World} {fresh : Option Nat}
    {r : Option Buf} (h : Reach true us br w) (hbr : 1 ≤ br)
    (htwo : 2 ≤ (blockSize - blockHdr) / (us + bufHdr))
    (hs : step w (.alloc fresh) = .ok (r, w')) (hnew : w'.mapped ≠ w.mapped) :
    ∀ b ∈ w.mapped, ∀ i, i < (blockSize - blockHdr) / (us + bufHdr) → (b, i) ∈ w.live := by
  have h2 := inv2_reach h hbr htwo
  obtain ⟨isNew, r', l', e1, _, _, e4⟩ := alloc_act h2 fresh
  simp only [step, e1, Res.ok.injEq, Prod.mk.injEq] at hs
  obtain ⟨_, hw⟩ := hs
  subst hw
  rw [h2.one.bufs] at e4
  cases isNew with
  | true => exact e4 rfl
  | false => exact absurd rfl hnew

/-- Companion of C07 (same restrictions): no call of a well behaved caller dereferences a NULL
pointer, and an allocation fails only when mmap fails. -/
theorem alloc_never_fails_partial {us br : Nat} {w : World} {op : Op} (h : Reach true us br w)
    (hbr : 1 ≤ br) (htwo : 2 ≤ (blockSize - blockHdr) / (us + bufHdr)) (hok : op.ok w) :
    ∃ r w', step w op = .ok (r, w') ∧ (∀ f, op = .alloc (some f) → r ≠ none) := by
  have h2 := inv2_reach h hbr htwo
  obtain ⟨r, w', e, _⟩ := inv2_step h2 hok
  refine ⟨r, w', e, ?_⟩
  intro f hf
  subst hf
  obtain ⟨isNew, r', l', e1, _, e3, _⟩ := alloc_act h2 (some f)
  simp only [step, e1, Res.ok.injEq, Prod.mk.injEq] at e
  rw [← e.1]
  intro hr
  exact nomatch e3 hr

/-- Run calls in sequence; `none` when one of them is undefined behaviour. -/
def runOps (w : World) : List Op → Option (List (Option Buf) × World)
  | [] => some ([], w)
  | op :: ops =>
    match step w op with
    | .ok (r, w') => (runOps w' ops).map fun p => (r :: p.1, p.2)
    | _ => none

/-- Start state of a configuration. -/
def start (debug : Bool) (us br : Nat) : Option World :=
  (create debug us br).map fun l => { l, live := [], mapped := [] }

/-- Disagreement with C07 in builds without NGX_DEBUG: with 200000-byte buffers (two per block)
four allocations map three blocks, although the second block has room for the fourth buffer. -/
theorem release_maps_too_much :
    ((start false 200000 8).bind fun w => (runOps w
      [.alloc (some 0), .alloc (some 524288), .alloc (some 524288), .alloc (some 1048576)]).map
      fun p => (p.1, p.2.mapped)) =
    some ([some (0, 0), some (0, 1), some (524288, 0), some (1048576, 0)], [1048576, 524288, 0]) := by
  decide

/-- The same calls with NGX_DEBUG: two blocks. -/
example :
    ((start true 200000 8).bind fun w => (runOps w
      [.alloc (some 0), .alloc (some 524288), .alloc (some 524288), .alloc (some 1048576)]).map
      fun p => (p.1, p.2.mapped)) =
    some ([some (0, 0), some (0, 1), some (524288, 0), some (524288, 1)], [524288, 0]) := by
  decide

/-- Disagreement with C07 for buffers of 256K (one per block), builds with NGX_DEBUG: after two
allocations and two frees the next allocation dereferences NULL, because `ngx_lba_block_free`
unlinks the sentinel of the active queue. -/
theorem single_buffer_crash :
    ((start true 262144 8).bind fun w =>
      (runOps w [.alloc (some 0), .alloc (some 524288), .free (0, 0), .free (524288, 0)]).map
      fun p => match step p.2 (.alloc (some 524288)) with | .ub => true | _ => false) = some true := by
  decide

/-- The same calls in builds without NGX_DEBUG: one more allocation succeeds, the next one returns
NULL although no mapped block has room and mmap would succeed. -/
theorem single_buffer_fails :
    ((start false 262144 8).bind fun w => (runOps w
      [.alloc (some 0), .alloc (some 524288), .free (0, 0), .free (524288, 0),
       .alloc (some 524288), .alloc (some 524288)]).map fun p => p.1) =
    some [some (0, 0), some (524288, 0), none, none, some (0, 0), none] := by
  decide

end Verif.Lba
