import Verif.BlockPoolProps

/-!
# Property C08: memory never moves from one slot to another
-/

namespace Verif.BlockPool

/-- The world `w'` comes from the world `w` by steps of well behaved callers. -/
inductive Later : World → World → Prop where
  | refl (w : World) : Later w w
  | step {w w1 w2 : World} {op : Op} {r : Option Entry} (h : Later w w1) (hok : op.ok w1)
      (hs : step w1 op = .ok (r, w2)) : Later w w2

/-- The region belongs to slot `i`: nothing the other slots keep or handed out overlaps it. -/
structure Away (w : World) (i : Nat) (r : Nat × Nat) : Prop where
  chunk : ∃ c ∈ w.chunks, c.1 ≤ r.1 ∧ r.1 + r.2 ≤ c.1 + c.2
  slots : ∀ j s, j ≠ i → w.bp.slots[j]? = some s → ∀ q ∈ slotRegs s, Disj r q
  live  : ∀ f ∈ w.live, f.slot ≠ i → Disj r (entryReg f)

/-- Everything a slot has after an allocation it had before or is in the fresh chunk. -/
theorem allocInternal_sub {s s' : Slot} {m m' p : Nat} {isNew : Bool} {fresh : Option Nat}
    (hs : SlotOk s) (h : allocInternal s m fresh = .ok (some p, isNew, s', m')) :
    ∀ q ∈ (p, s.size) :: slotRegs s',
      (∃ q0 ∈ slotRegs s, q0.1 ≤ q.1 ∧ q.1 + q.2 ≤ q0.1 + q0.2) ∨
      (∃ c, fresh = some c ∧ c ≤ q.1 ∧ q.1 + q.2 ≤ c + s.alloc) := by
  obtain ⟨hmin, hal, hpos⟩ := hs
  unfold allocInternal at h
  split at h
  · rename_i x rest hf
    simp only [Res.ok.injEq, Prod.mk.injEq, Option.some.injEq] at h
    obtain ⟨h1, h2, h3, h4⟩ := h
    subst h1 h2 h3 h4
    intro q hq
    refine Or.inl ⟨q, ?_, Nat.le_refl _, Nat.le_refl _⟩
    simpa [slotRegs, hf] using hq
  · rename_i hf
    rw [if_neg (by omega)] at h
    split at h
    · split at h
      · exact nomatch h
      · split at h
        · exact nomatch h
        · rename_i c
          simp only [Res.ok.injEq, Prod.mk.injEq, Option.some.injEq] at h
          obtain ⟨h1, h2, h3, h4⟩ := h
          subst h1 h2 h3 h4
          intro q hq
          refine Or.inr ⟨c, rfl, ?_⟩
          simp only [slotRegs, hf, List.map_nil, List.nil_append, List.mem_cons, List.not_mem_nil,
            or_false] at hq
          rcases hq with hq | hq <;> subst hq <;> simp only <;> omega
    · simp only [Res.ok.injEq, Prod.mk.injEq, Option.some.injEq] at h
      obtain ⟨h1, h2, h3, h4⟩ := h
      subst h1 h2 h3 h4
      intro q hq
      refine Or.inl ⟨(s.pos, s.fin - s.pos), by simp [slotRegs], ?_⟩
      simp only [slotRegs, hf, List.map_nil, List.nil_append, List.mem_cons, List.not_mem_nil,
        or_false] at hq
      rcases hq with hq | hq <;> subst hq <;> simp only <;> omega

theorem away_alloc {w : World} {i : Nat} {r : Nat × Nat} (ha : Away w i r)
    {index : Nat} {fresh : Option Nat} {s : Slot} (hslot : w.bp.slots[index]? = some s)
    (hso : SlotOk s) (hc : ∀ c, fresh = some c → ∀ d ∈ w.chunks, Disj (c, s.alloc) d)
    {p m' : Nat} {isNew : Bool} {s' : Slot} {C : List (Nat × Nat)} {auto : Bool}
    (h : allocInternal s w.bp.memLimit fresh = .ok (some p, isNew, s', m')) (hdr : Nat → Nat) :
    Away { w with bp := { slots := w.bp.slots.set index s', memLimit := m' }
                  live := { ptr := p, slot := index, size := s.size, auto } :: w.live
                  chunks := C ++ w.chunks
                  hdr } i r := by
  obtain ⟨⟨c, hcm, hc1, hc2⟩, h2, h3⟩ := ha
  have key : index ≠ i → ∀ q ∈ (p, s.size) :: slotRegs s', Disj r q := by
    intro hne q hq
    rcases allocInternal_sub hso h q hq with ⟨q0, hq0, hl, hr⟩ | ⟨c', hf, hl, hr⟩
    · exact disj_symm (disj_sub (disj_symm (h2 index s hne hslot q0 hq0)) hl hr)
    · have := hc c' hf c hcm
      unfold Disj at *
      simp only at this
      omega
  refine ⟨⟨c, by simp [hcm], hc1, hc2⟩, ?_, ?_⟩
  · intro j t hj ht q hq
    by_cases hji : index = j
    · subst hji
      have hlt := (List.getElem?_eq_some_iff.1 hslot).1
      simp only [List.getElem?_set_self hlt, Option.some.injEq] at ht
      subst ht
      exact key hj q (List.mem_cons_of_mem _ hq)
    · simp only [List.getElem?_set_ne hji] at ht
      exact h2 j t hj ht q hq
  · intro f hf hfi
    rcases List.mem_cons.1 hf with hf | hf
    · subst hf
      exact key hfi _ (List.mem_cons_self ..)
    · exact h3 f hf hfi

theorem away_free {w : World} {i : Nat} {r : Nat × Nat} (ha : Away w i r)
    {index : Nat} {es : List Entry} (hsz : ∀ e ∈ es, e ∈ w.live ∧ e.slot = index ∧
      ∀ s, w.bp.slots[index]? = some s → s.size = e.size)
    {live : List Entry} (hl : ∀ f ∈ live, f ∈ w.live) :
    Away { w with bp := freeList w.bp index (es.map (·.ptr)), live := live } i r := by
  obtain ⟨h1, h2, h3⟩ := ha
  refine ⟨h1, ?_, fun f hf hfi => h3 f (hl f hf) hfi⟩
  intro j t hj ht q hq
  simp only [freeList] at ht
  cases hslot : w.bp.slots[index]? with
  | none => rw [hslot] at ht; exact h2 j t hj ht q hq
  | some s =>
    rw [hslot] at ht
    by_cases hji : index = j
    · subst hji
      have hlt := (List.getElem?_eq_some_iff.1 hslot).1
      simp only [List.getElem?_set_self hlt, Option.some.injEq] at ht
      subst ht
      simp only [freeInternal, slotRegs, List.map_append, List.map_map, List.mem_append,
        List.mem_map] at hq
      have hs2 := h2 index s hj hslot
      rcases hq with (⟨x, hx, hq⟩ | ⟨e, he, hq⟩) | hq
      · exact hs2 q (by
          simp only [slotRegs, List.mem_append, List.mem_map]; exact Or.inl ⟨x, hx, hq⟩)
      · obtain ⟨g1, g2, g3⟩ := hsz e he
        have := h3 e g1 (by rw [g2]; exact hj)
        rw [← hq]
        simpa [entryReg, g3 s hslot] using this
      · exact hs2 q (by simp only [slotRegs, List.mem_append]; exact Or.inr hq)
    · simp only [List.getElem?_set_ne hji] at ht
      exact h2 j t hj ht q hq

theorem entry_size {sizes : List Nat} {budget : Nat} {w : World} (hi : Inv sizes budget w)
    {e : Entry} (he : e ∈ w.live) : ∃ s, w.bp.slots[e.slot]? = some s ∧ s.size = e.size := by
  have h7 := hi.entry e he
  rw [← hi.szs, List.getElem?_map] at h7
  cases hsl : w.bp.slots[e.slot]? with
  | none => rw [hsl] at h7; exact nomatch h7
  | some t =>
    rw [hsl] at h7
    exact ⟨t, rfl, by simpa using h7⟩

theorem away_step {sizes : List Nat} {budget : Nat} {w w' : World} {op : Op} {o : Option Entry}
    {i : Nat} {r : Nat × Nat} (hi : Inv sizes budget w) (hok : op.ok w)
    (hs : step w op = .ok (o, w')) (ha : Away w i r) : Away w' i r := by
  cases op with
  | alloc index fresh =>
    simp only [step, alloc] at hs
    cases hslot : w.bp.slots[index]? with
    | none =>
      rw [hslot] at hs
      simp [newChunk] at hs
      rw [← hs.2]; exact ha
    | some s =>
      rw [hslot] at hs
      have hsm : s ∈ w.bp.slots := List.mem_of_getElem? hslot
      have hc : ∀ c, fresh = some c → ∀ d ∈ w.chunks, Disj (c, s.alloc) d := by
        intro c hfc d hd
        subst hfc
        have := hok d hd
        simpa [wanted, hslot] using this
      rcases allocInternal_none (m := w.bp.memLimit) (fresh := fresh) (hi.slots s hsm)
        with ⟨p, isNew, s', m', h⟩ | ⟨h, _⟩
      · simp only [h, Res.ok.injEq, Prod.mk.injEq, Option.map_some, Option.toList_some,
          List.singleton_append, getSize, hslot] at hs
        rw [← hs.2]
        exact away_alloc ha hslot (hi.slots s hsm) hc h w.hdr
      · have hset : w.bp.slots.set index s = w.bp.slots := by
          obtain ⟨a, b⟩ := split_at hslot
          rw [b s]; exact a.symm
        simp [h, newChunk, hset] at hs
        rw [← hs.2]; exact ha
  | freeList index es =>
    simp only [step, Res.ok.injEq, Prod.mk.injEq] at hs
    rw [← hs.2]
    refine away_free ha ?_ (fun f hf => (List.mem_filter.1 hf).1)
    intro e he
    obtain ⟨h1, h2⟩ := hok.2 e he
    obtain ⟨s, hs1, hs2⟩ := entry_size hi h1
    refine ⟨h1, h2, ?_⟩
    intro t ht
    rw [h2] at hs1
    rw [hs1] at ht
    cases ht
    exact hs2
  | autoAlloc n fresh =>
    simp only [step, autoAlloc] at hs
    rcases pool_search_range w.bp n with hse | ⟨index, s, hse, hslot⟩
    · rw [hse] at hs
      simp only [Res.ok.injEq, Prod.mk.injEq] at hs
      rw [← hs.2]; exact ha
    · have hc : ∀ c, fresh = some c → ∀ d ∈ w.chunks, Disj (c, s.alloc) d := by
        intro c hfc d hd
        subst hfc
        have := hok d hd
        simpa [wanted, hse, hslot] using this
      have hsm : s ∈ w.bp.slots := List.mem_of_getElem? hslot
      rw [hse] at hs
      rcases allocInternal_none (m := w.bp.memLimit) (fresh := fresh) (hi.slots s hsm)
        with ⟨p, isNew, s', m', h⟩ | ⟨h, _⟩
      · simp only [alloc, hslot, h, Res.ok.injEq, Prod.mk.injEq, Option.map_some, getSize] at hs
        rw [← hs.2]
        exact away_alloc ha hslot (hi.slots s hsm) hc h _
      · have hset : w.bp.slots.set index s = w.bp.slots := by
          obtain ⟨a, b⟩ := split_at hslot
          rw [b s]; exact a.symm
        simp [alloc, hslot, h, hset] at hs
        rw [← hs.2]; exact ha
  | autoFree p =>
    simp only [step, Res.ok.injEq, Prod.mk.injEq] at hs
    rw [← hs.2]
    obtain ⟨e, he, hp, hau⟩ := hok
    have hh := hi.hdr e he hau
    obtain ⟨s, hs1, hs2⟩ := entry_size hi he
    have := away_free ha (index := w.hdr p) (es := [e]) (by
      intro x hx
      simp only [List.mem_singleton] at hx
      subst hx
      rw [hp] at hh
      refine ⟨he, hh.symm, ?_⟩
      intro t ht
      rw [hh, hs1] at ht
      cases ht
      exact hs2) (live := w.live.filter (fun e => e.ptr != p)) (fun f hf => (List.mem_filter.1 hf).1)
    simpa [hp] using this
  | envTake n =>
    simp only [step, Res.ok.injEq, Prod.mk.injEq] at hs
    rw [← hs.2]; exact ⟨ha.1, ha.2, ha.3⟩
  | envGive n =>
    simp only [step, Res.ok.injEq, Prod.mk.injEq] at hs
    rw [← hs.2]; exact ⟨ha.1, ha.2, ha.3⟩

/-- C08: memory handed out once for slot `e.slot` is never handed out later for another slot,
not even in part. -/
theorem memory_stays_in_slot {pageSize : Nat} {sizes : List Nat} {budget : Nat} {w w' : World}
    {e f : Entry} (hp : 0 < pageSize) (h : Reach pageSize sizes budget w) (he : e ∈ w.live)
    (hl : Later w w') (hf : f ∈ w'.live) (hne : f.slot ≠ e.slot) :
    Disj (entryReg e) (entryReg f) := by
  have hi := inv_reach hp h
  have hall : ∀ {l : List (Nat × Nat)}, l.Pairwise Disj → ∀ l1 a l2 b, l = l1 ++ a :: l2 →
      (b ∈ l1 ∨ b ∈ l2) → Disj a b := by
    intro l hl l1 a l2 b e hb
    subst e
    rcases hb with hb | hb
    · exact disj_symm ((List.pairwise_append.1 hl).2.2 b hb a (List.mem_cons_self ..))
    · exact (List.pairwise_cons.1 (List.pairwise_append.1 hl).2.1).1 b hb
  obtain ⟨l1, l2, hlive⟩ := List.append_of_mem he
  have hregs : regions w = l1.map entryReg ++ entryReg e ::
      (l2.map entryReg ++ w.bp.slots.flatMap slotRegs) := by
    simp [regions, hlive]
  have h0 : Away w e.slot (entryReg e) := by
    obtain ⟨s, hs1, hs2⟩ := entry_size hi he
    have hmin := (hi.slots s (List.mem_of_getElem? hs1)).min
    refine ⟨?_, ?_, ?_⟩
    · rcases hi.inside (entryReg e) (by rw [hregs]; simp) with h0 | h0
      · simp only [entryReg] at h0; omega
      · exact h0
    · intro j t _ ht q hq
      refine hall hi.disj _ _ _ q hregs (Or.inr ?_)
      rw [List.mem_append]
      exact Or.inr (List.mem_flatMap.2 ⟨t, List.mem_of_getElem? ht, hq⟩)
    · intro g hg hgi
      refine hall hi.disj _ _ _ _ hregs ?_
      rw [hlive] at hg
      rcases List.mem_append.1 hg with hg | hg
      · exact Or.inl (List.mem_map.2 ⟨g, hg, rfl⟩)
      · rcases List.mem_cons.1 hg with hg | hg
        · subst hg; exact absurd rfl hgi
        · exact Or.inr (List.mem_append.2 (Or.inl (List.mem_map.2 ⟨g, hg, rfl⟩)))
  have hr : Reach pageSize sizes budget w' ∧ Away w' e.slot (entryReg e) := by
    clear hf
    induction hl with
    | refl => exact ⟨h, h0⟩
    | step _ hok hs ih =>
      exact ⟨Reach.step ih.1 hok hs, away_step (inv_reach hp ih.1) hok hs ih.2⟩
  exact hr.2.live f hf hne

end Verif.BlockPool
