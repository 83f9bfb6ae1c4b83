import Verif.BlockPool

/-!
# Properties C08 and C09: the block pool
-/

namespace Verif.BlockPool

/-- Reachable worlds of a pool with the given slot sizes and budget. -/
inductive Reach (pageSize : Nat) (sizes : List Nat) (budget : Nat) : World → Prop where
  | init : Reach pageSize sizes budget
      { bp := create pageSize sizes budget, live := [], chunks := [], other := 0, hdr := fun _ => 0 }
  | step {w w' : World} {op : Op} {r : Option Entry} (h : Reach pageSize sizes budget w)
      (hok : op.ok w) (hs : step w op = .ok (r, w')) : Reach pageSize sizes budget w'

/-- The region lies in a chunk obtained from the system. -/
def Inside (chunks : List (Nat × Nat)) (r : Nat × Nat) : Prop :=
  r.2 = 0 ∨ ∃ c ∈ chunks, c.1 ≤ r.1 ∧ r.1 + r.2 ≤ c.1 + c.2

/-- Memory a slot keeps: freed buffers and the unused rest of its last chunk. -/
def slotRegs (s : Slot) : List (Nat × Nat) :=
  s.free.map (fun p => (p, s.size)) ++ [(s.pos, s.fin - s.pos)]

/-- Memory of a buffer handed out. -/
def entryReg (e : Entry) : Nat × Nat := (e.ptr, e.size)

def regions (w : World) : List (Nat × Nat) :=
  w.live.map entryReg ++ w.bp.slots.flatMap slotRegs

structure SlotOk (s : Slot) : Prop where
  min   : 8 ≤ s.size
  alloc : s.size ≤ s.alloc
  pos   : s.pos ≤ s.fin

/-- Sizes of the slots after the rounding of ngx_block_pool.c:53-56. -/
def slotSizes (sizes : List Nat) : List Nat := sizes.map (fun n => if n < 8 then 8 else n)

structure Inv (sizes : List Nat) (budget : Nat) (w : World) : Prop where
  szs    : w.bp.slots.map (·.size) = slotSizes sizes
  slots  : ∀ s ∈ w.bp.slots, SlotOk s
  disj   : (regions w).Pairwise Disj
  inside : ∀ r ∈ regions w, Inside w.chunks r
  cdisj  : w.chunks.Pairwise Disj
  mem    : (w.chunks.map (·.2)).sum + w.bp.memLimit + w.other = budget
  entry  : ∀ e ∈ w.live, (slotSizes sizes)[e.slot]? = some e.size
  hdr    : ∀ e ∈ w.live, e.auto = true → w.hdr e.ptr = e.slot

theorem disj_symm {a b : Nat × Nat} (h : Disj a b) : Disj b a := by
  unfold Disj at *; omega

theorem disj_sub {a b d : Nat × Nat} (h : Disj a d) (h1 : a.1 ≤ b.1) (h2 : b.1 + b.2 ≤ a.1 + a.2) :
    Disj b d := by
  unfold Disj at *; omega

theorem inside_mono {c1 c2 : List (Nat × Nat)} {r : Nat × Nat} (h : Inside c1 r) :
    Inside (c2 ++ c1) r := by
  rcases h with h | ⟨c, hc, h1⟩
  · exact Or.inl h
  · exact Or.inr ⟨c, by simp [hc], h1⟩

theorem disj_inside {c : Nat × Nat} {chunks : List (Nat × Nat)} {r : Nat × Nat}
    (h : ∀ d ∈ chunks, Disj c d) (hr : Inside chunks r) : Disj c r := by
  rcases hr with hr | ⟨d, hd, h1, h2⟩
  · unfold Disj; omega
  · exact disj_symm (disj_sub (disj_symm (h d hd)) h1 h2)

/-- A successful allocation from a slot. `O` are all other regions in use. -/
theorem allocInternal_some {s s' : Slot} {m m' p : Nat} {isNew : Bool} {fresh : Option Nat}
    {O chunks : List (Nat × Nat)} (hs : SlotOk s)
    (hd : (slotRegs s ++ O).Pairwise Disj) (hin : ∀ r ∈ slotRegs s ++ O, Inside chunks r)
    (hc : ∀ c, fresh = some c → ∀ d ∈ chunks, Disj (c, s.alloc) d)
    (h : allocInternal s m fresh = .ok (some p, isNew, s', m')) :
    SlotOk s' ∧ s'.size = s.size ∧
    ((p, s.size) :: (slotRegs s' ++ O)).Pairwise Disj ∧
    ((isNew = false ∧ m' = m ∧ ∀ r ∈ (p, s.size) :: (slotRegs s' ++ O), Inside chunks r) ∨
     (isNew = true ∧ fresh = some p ∧ m' + s.alloc = m ∧
      ∀ r ∈ (p, s.size) :: (slotRegs s' ++ O), Inside ([(p, s.alloc)] ++ chunks) r)) := by
  obtain ⟨hmin, hal, hpos⟩ := hs
  unfold allocInternal at h
  split at h
  · rename_i q rest hf
    simp only [Res.ok.injEq, Prod.mk.injEq, Option.some.injEq] at h
    obtain ⟨h1, h2, h3, h4⟩ := h
    subst h1 h2 h3 h4
    have e : slotRegs s = (q, s.size) :: slotRegs { s with free := rest, nalloc := s.nalloc + 1 } := by
      simp [slotRegs, hf]
    rw [e, List.cons_append] at hd hin
    exact ⟨⟨hmin, hal, hpos⟩, rfl, hd, Or.inl ⟨rfl, rfl, hin⟩⟩
  · rename_i hf
    have e : slotRegs s = [(s.pos, s.fin - s.pos)] := by simp [slotRegs, hf]
    rw [e, List.cons_append, List.nil_append] at hd hin
    rw [List.pairwise_cons] at hd
    obtain ⟨hd1, hd2⟩ := hd
    rw [if_neg (by omega)] at h
    split at h
    · rename_i hlt
      split at h
      · exact nomatch h
      · rename_i hm
        split at h
        · exact nomatch h
        · rename_i c
          simp only [Res.ok.injEq, Prod.mk.injEq, Option.some.injEq] at h
          obtain ⟨h1, h2, h3, h4⟩ := h
          subst h1 h2 h3 h4
          have hcd := hc c rfl
          have hcr : ∀ r ∈ O, Disj (c, s.alloc) r := fun r hr =>
            disj_inside hcd (hin r (by simp [hr]))
          refine ⟨⟨hmin, hal, by dsimp only; omega⟩, rfl, ?_, Or.inr ⟨rfl, rfl, by omega, ?_⟩⟩
          · simp only [slotRegs, hf, List.map_nil, List.nil_append, List.singleton_append,
              List.pairwise_cons, List.mem_cons]
            refine ⟨?_, ?_, hd2⟩
            · rintro r (hr | hr)
              · subst hr; unfold Disj; simp only; omega
              · exact disj_sub (hcr r hr) (by simp) (by simp; omega)
            · intro r hr
              exact disj_sub (hcr r hr) (by simp) (by simp only; omega)
          · simp only [slotRegs, hf, List.map_nil, List.nil_append, List.singleton_append,
              List.mem_cons]
            rintro r (hr | hr | hr)
            · subst hr; exact Or.inr ⟨(c, s.alloc), by simp, by simp, by simp; omega⟩
            · subst hr
              exact Or.inr ⟨(c, s.alloc), by simp, by simp, by simp only; omega⟩
            · exact inside_mono (c2 := [(c, s.alloc)]) (hin r (by simp [hr]))
    · rename_i hge
      simp only [Res.ok.injEq, Prod.mk.injEq, Option.some.injEq] at h
      obtain ⟨h1, h2, h3, h4⟩ := h
      subst h1 h2 h3 h4
      refine ⟨⟨hmin, hal, by dsimp only; omega⟩, rfl, ?_, Or.inl ⟨rfl, rfl, ?_⟩⟩
      · simp only [slotRegs, hf, List.map_nil, List.nil_append, List.singleton_append,
          List.pairwise_cons, List.mem_cons]
        refine ⟨?_, ?_, hd2⟩
        · rintro r (hr | hr)
          · subst hr; unfold Disj; simp only; omega
          · exact disj_sub (hd1 r hr) (by simp) (by simp only; omega)
        · intro r hr
          exact disj_sub (hd1 r hr) (by simp only; omega) (by simp only; omega)
      · have h0 := hin (s.pos, s.fin - s.pos) (by simp)
        simp only [slotRegs, hf, List.map_nil, List.nil_append, List.singleton_append,
          List.mem_cons]
        have hsub : ∀ r : Nat × Nat, s.pos ≤ r.1 → r.1 + r.2 ≤ s.fin → Inside chunks r := by
          intro r hr1 hr2
          rcases h0 with h0 | ⟨d, hd, hd1, hd2⟩
          · simp only at h0; omega
          · simp only at hd1 hd2
            exact Or.inr ⟨d, hd, by omega, by omega⟩
        rintro r (hr | hr | hr)
        · subst hr; exact hsub _ (by simp) (by simp only; omega)
        · subst hr; exact hsub _ (by simp only; omega) (by simp only; omega)
        · exact hin r (by simp [hr])

/-- A failed allocation changes nothing; and there is no undefined behaviour. -/
theorem allocInternal_none {s : Slot} {m : Nat} {fresh : Option Nat} (hs : SlotOk s) :
    (∃ p isNew s' m', allocInternal s m fresh = .ok (some p, isNew, s', m')) ∨
    (allocInternal s m fresh = .ok (none, false, s, m) ∧ s.free = [] ∧ s.fin - s.pos < s.size ∧
      (m < s.alloc ∨ fresh = none)) := by
  obtain ⟨hmin, hal, hpos⟩ := hs
  unfold allocInternal
  split
  · exact Or.inl ⟨_, _, _, _, rfl⟩
  · rename_i hf
    rw [if_neg (by omega)]
    split
    · rename_i hlt
      split
      · rename_i hm; exact Or.inr ⟨rfl, hf, hlt, Or.inl hm⟩
      · split
        · exact Or.inr ⟨rfl, hf, hlt, Or.inr rfl⟩
        · exact Or.inl ⟨_, _, _, _, rfl⟩
    · exact Or.inl ⟨_, _, _, _, rfl⟩

theorem split_at {α} {l : List α} {i : Nat} {s : α} (h : l[i]? = some s) :
    l = l.take i ++ s :: l.drop (i + 1) ∧ ∀ s', l.set i s' = l.take i ++ s' :: l.drop (i + 1) := by
  obtain ⟨hi, he⟩ := List.getElem?_eq_some_iff.1 h
  constructor
  · subst he
    rw [← List.drop_eq_getElem_cons hi, List.take_append_drop]
  · intro s'
    rw [List.set_eq_take_append_cons_drop, if_pos hi]

theorem regions_split {L : List (Nat × Nat)} {slots : List Slot} {i : Nat} {s : Slot}
    (h : slots[i]? = some s) : ∃ O : List (Nat × Nat),
    (L ++ slots.flatMap slotRegs).Perm (slotRegs s ++ (L ++ O)) ∧
    ∀ s', (L ++ (slots.set i s').flatMap slotRegs).Perm (slotRegs s' ++ (L ++ O)) := by
  obtain ⟨h1, h2⟩ := split_at h
  refine ⟨(slots.take i).flatMap slotRegs ++ (slots.drop (i + 1)).flatMap slotRegs, ?_, ?_⟩
  all_goals
    have key : ∀ (A B C D : List (Nat × Nat)), (A ++ (B ++ (C ++ D))).Perm (C ++ (A ++ (B ++ D))) := by
      intro A B C D
      rw [List.perm_iff_count]
      intro a
      simp only [List.count_append]
      omega
  · conv => lhs; rw [h1]
    rw [List.flatMap_append, List.flatMap_cons]
    exact key _ _ _ _
  · intro s'
    rw [h2 s', List.flatMap_append, List.flatMap_cons]
    exact key _ _ _ _

theorem set_size {slots : List Slot} {i : Nat} {s s' : Slot} (h : slots[i]? = some s)
    (hs : s'.size = s.size) : (slots.set i s').map (·.size) = slots.map (·.size) := by
  obtain ⟨h1, h2⟩ := split_at h
  rw [h2 s']
  conv => rhs; rw [h1]
  simp [hs]

theorem mem_set' {slots : List Slot} {i : Nat} {s' x : Slot} (h : x ∈ slots.set i s') :
    x ∈ slots ∨ x = s' := List.mem_or_eq_of_mem_set h

/-- Common part of both allocation functions. -/
theorem inv_alloc {sizes : List Nat} {budget : Nat} {w : World} (hi : Inv sizes budget w)
    {index : Nat} {fresh : Option Nat} {s : Slot} (hslot : w.bp.slots[index]? = some s)
    (hc : ∀ c, fresh = some c → ∀ d ∈ w.chunks, Disj (c, s.alloc) d)
    {p m' : Nat} {isNew : Bool} {s' : Slot}
    (h : allocInternal s w.bp.memLimit fresh = .ok (some p, isNew, s', m'))
    (auto : Bool) (hdr : Nat → Nat) (hh1 : ∀ a, a ≠ p → hdr a = w.hdr a)
    (hh2 : auto = true → hdr p = index) :
    Inv sizes budget { w with bp := { slots := w.bp.slots.set index s', memLimit := m' }
                              live := { ptr := p, slot := index, size := s.size, auto } :: w.live
                              chunks := newChunk w.bp index isNew fresh ++ w.chunks
                              hdr } ∧
    ∀ e ∈ w.live, Disj (p, s.size) (entryReg e) := by
  obtain ⟨i1, i2, i3, i4, i5, i6, i7, i8⟩ := hi
  have hsm : s ∈ w.bp.slots := List.mem_of_getElem? hslot
  obtain ⟨O, hp1, hp2⟩ := regions_split (L := w.live.map entryReg) hslot
  have hd : (slotRegs s ++ (w.live.map entryReg ++ O)).Pairwise Disj :=
    (hp1.pairwise_iff disj_symm).1 i3
  have hin : ∀ r ∈ slotRegs s ++ (w.live.map entryReg ++ O), Inside w.chunks r := fun r hr =>
    i4 r (hp1.mem_iff.2 hr)
  obtain ⟨hso, hss, hpw, hcase⟩ := allocInternal_some (i2 s hsm) hd hin hc h
  have hlive : ∀ e ∈ w.live, Disj (p, s.size) (entryReg e) := by
    intro e he
    exact (List.pairwise_cons.1 hpw).1 _ (by
      simp only [List.mem_append, List.mem_map]; exact Or.inr (Or.inl ⟨e, he, rfl⟩))
  have hperm := hp2 s'
  have hregs : (regions { w with bp := { slots := w.bp.slots.set index s', memLimit := m' }
                                 live := { ptr := p, slot := index, size := s.size, auto } :: w.live
                                 chunks := newChunk w.bp index isNew fresh ++ w.chunks
                                 hdr }).Perm
      ((p, s.size) :: (slotRegs s' ++ (w.live.map entryReg ++ O))) := by
    simp only [regions, List.map_cons, List.cons_append]
    exact List.Perm.cons _ hperm
  refine ⟨⟨?_, ?_, ?_, ?_, ?_, ?_, ?_, ?_⟩, hlive⟩
  · show (w.bp.slots.set index s').map (·.size) = _
    rw [set_size hslot hss, i1]
  · intro x hx
    rcases mem_set' hx with hx | hx
    · exact i2 x hx
    · rw [hx]; exact hso
  · exact (hregs.pairwise_iff disj_symm).2 hpw
  · intro r hr
    have hr' := hregs.mem_iff.1 hr
    rcases hcase with ⟨hn, _, hins⟩ | ⟨hn, hf, _, hins⟩
    · exact inside_mono (hins r hr')
    · subst hn hf
      simp only [newChunk, hslot]
      exact hins r hr'
  · show (newChunk w.bp index isNew fresh ++ w.chunks).Pairwise Disj
    rcases hcase with ⟨hn, _, _⟩ | ⟨hn, hf, _, _⟩
    · subst hn; simpa [newChunk] using i5
    · subst hn hf
      simp only [newChunk, hslot, List.singleton_append, List.pairwise_cons]
      exact ⟨hc p rfl, i5⟩
  · show (((newChunk w.bp index isNew fresh ++ w.chunks).map (·.2)).sum + m' + w.other) = budget
    rcases hcase with ⟨hn, hm, _⟩ | ⟨hn, hf, hm, _⟩
    · subst hn hm; simpa [newChunk] using i6
    · subst hn hf
      simp only [newChunk, hslot, List.singleton_append, List.map_cons, List.sum_cons]
      omega
  · intro e he
    rcases List.mem_cons.1 he with he | he
    · subst he
      show (slotSizes sizes)[index]? = some s.size
      rw [← i1, List.getElem?_map, hslot]; rfl
    · exact i7 e he
  · intro e he ha
    rcases List.mem_cons.1 he with he | he
    · subst he
      exact hh2 ha
    · show hdr e.ptr = e.slot
      rw [hh1 e.ptr ?_]
      · exact i8 e he ha
      · intro hep
        have := hlive e he
        have hmin := (i2 s hsm).min
        have hesz : 8 ≤ e.size := by
          have h7 := i7 e he
          rw [← i1, List.getElem?_map] at h7
          cases hsl : w.bp.slots[e.slot]? with
          | none => rw [hsl] at h7; exact nomatch h7
          | some t =>
            rw [hsl] at h7
            simp only [Option.map_some, Option.some.injEq] at h7
            rw [← h7]; exact (i2 t (List.mem_of_getElem? hsl)).min
        unfold Disj entryReg at this
        simp only at this
        omega

/-- Freeing a list of live buffers of one slot. -/
theorem inv_free {sizes : List Nat} {budget : Nat} {w : World} (hi : Inv sizes budget w)
    {index : Nat} {es : List Entry} (hnd : es.Nodup) (hlive : ∀ e ∈ es, e ∈ w.live ∧ e.slot = index) :
    Inv sizes budget { w with bp := freeList w.bp index (es.map (·.ptr))
                              live := w.live.filter (fun e => !es.contains e) } := by
  obtain ⟨i1, i2, i3, i4, i5, i6, i7, i8⟩ := hi
  have hsizes8 : ∀ e ∈ w.live, 8 ≤ e.size := by
    intro e he
    have h7 := i7 e he
    rw [← i1, List.getElem?_map] at h7
    cases hsl : w.bp.slots[e.slot]? with
    | none => rw [hsl] at h7; exact nomatch h7
    | some t =>
      rw [hsl] at h7
      simp only [Option.map_some, Option.some.injEq] at h7
      rw [← h7]; exact (i2 t (List.mem_of_getElem? hsl)).min
  have hlnd : w.live.Nodup := by
    have h3 : (w.live.map entryReg).Pairwise Disj := (List.pairwise_append.1 i3).1
    rw [List.pairwise_map] at h3
    rw [List.Nodup, List.pairwise_iff_forall_sublist]
    intro a b hab heq
    subst heq
    have h8 := hsizes8 a (hab.subset (by simp))
    have := (List.pairwise_iff_forall_sublist.1 h3) hab
    unfold Disj entryReg at this
    simp only at this
    omega
  have hperm : w.live.Perm (es ++ w.live.filter (fun e => !es.contains e)) := by
    rw [List.perm_ext_iff_of_nodup hlnd]
    · intro e
      simp only [List.mem_append, List.mem_filter, Bool.not_eq_true', List.contains_eq_mem,
        decide_eq_false_iff_not]
      constructor
      · intro he
        by_cases h : e ∈ es
        · exact Or.inl h
        · exact Or.inr ⟨he, h⟩
      · rintro (h | h)
        · exact (hlive e h).1
        · exact h.1
    · rw [List.nodup_append]
      refine ⟨hnd, hlnd.filter _, ?_⟩
      intro a ha b hb hab
      subst hab
      simp [ha] at hb
  cases hslot : w.bp.slots[index]? with
  | none =>
    -- no live entry can have this slot
    have hes : es = [] := by
      cases es with
      | nil => rfl
      | cons e t =>
        have h7 := i7 e (hlive e (by simp)).1
        rw [← i1, List.getElem?_map, (hlive e (by simp)).2, hslot] at h7
        exact nomatch h7
    subst hes
    have : w.live.filter (fun e => !([] : List Entry).contains e) = w.live := by simp
    rw [this]
    simp only [freeList, hslot]
    exact ⟨i1, i2, i3, i4, i5, i6, i7, i8⟩
  | some s =>
    simp only [freeList, hslot]
    have hsm : s ∈ w.bp.slots := List.mem_of_getElem? hslot
    have hesz : ∀ e ∈ es, e.size = s.size := by
      intro e he
      have h7 := i7 e (hlive e he).1
      rw [← i1, List.getElem?_map, (hlive e he).2, hslot] at h7
      simp only [Option.map_some, Option.some.injEq] at h7
      exact h7.symm
    have hmap : (es.map (·.ptr)).map (fun p => (p, s.size)) = es.map entryReg := by
      rw [List.map_map]
      apply List.map_congr_left
      intro e he
      simp only [Function.comp, entryReg, hesz e he]
    obtain ⟨O, hp1, _⟩ := regions_split (L := w.live.map entryReg) hslot
    obtain ⟨O', _, hp2⟩ := regions_split
      (L := (w.live.filter (fun e => !es.contains e)).map entryReg) hslot
    have hregs : (regions { w with
                                   bp := { slots := w.bp.slots.set index (freeInternal s (es.map (·.ptr))), memLimit := w.bp.memLimit }
                                   live := w.live.filter (fun e => !es.contains e) }).Perm
        (regions w) := by
      simp only [regions]
      obtain ⟨h1, h2⟩ := split_at hslot
      rw [h2]
      conv => rhs; rw [h1]
      rw [List.flatMap_append, List.flatMap_cons, List.flatMap_append, List.flatMap_cons]
      have hf : slotRegs (freeInternal s (es.map (·.ptr))) =
          s.free.map (fun p => (p, s.size)) ++ es.map entryReg ++ [(s.pos, s.fin - s.pos)] := by
        simp only [slotRegs, freeInternal, List.map_append, hmap]
      rw [hf]
      simp only [slotRegs]
      rw [List.perm_iff_count]
      intro a
      have hc := (hperm.map entryReg).count_eq a
      simp only [List.map_append, List.count_append] at hc ⊢
      omega
    refine ⟨?_, ?_, ?_, ?_, i5, i6, ?_, ?_⟩
    · show (w.bp.slots.set index _).map (·.size) = _
      rw [set_size (s' := freeInternal s (es.map (·.ptr))) hslot rfl, i1]
    · intro x hx
      rcases mem_set' hx with hx | hx
      · exact i2 x hx
      · rw [hx]
        obtain ⟨a, b, c⟩ := i2 s hsm
        exact ⟨a, b, c⟩
    · exact (hregs.pairwise_iff disj_symm).2 i3
    · intro r hr; exact i4 r (hregs.mem_iff.1 hr)
    · intro e he; exact i7 e (List.mem_filter.1 he).1
    · intro e he; exact i8 e (List.mem_filter.1 he).1

/-! ## The binary search -/

/-- The search ends, stays inside the table, whatever the table holds. -/
theorem search_range (sizes : List Nat) (size : Nat) : ∀ (fuel : Nat) (left right : Int),
    0 ≤ left → left ≤ sizes.length → right < sizes.length → right - left + 2 ≤ fuel → 1 ≤ fuel →
    search sizes size fuel left right = .ok none ∨
    ∃ i, search sizes size fuel left right = .ok (some i) ∧ i < sizes.length
  | 0, _, _, _, _, _, _, h => by omega
  | fuel + 1, left, right, h0, hl, hr, hf, _ => by
    unfold search
    by_cases hlr : left > right
    · rw [if_pos hlr]
      by_cases hlen : left.toNat < sizes.length
      · rw [if_pos hlen]; exact Or.inr ⟨_, rfl, hlen⟩
      · rw [if_neg hlen]; exact Or.inl rfl
    · rw [if_neg hlr]
      dsimp only
      have hidx : ((left + right) / 2).toNat < sizes.length := by omega
      rw [List.getElem?_eq_getElem hidx]
      dsimp only
      split
      · exact search_range sizes size fuel _ _ (by omega) (by omega) hr (by omega) (by omega)
      · split
        · exact search_range sizes size fuel _ _ h0 hl (by omega) (by omega) (by omega)
        · exact Or.inr ⟨_, rfl, hidx⟩

/-- On a sorted table the search finds the smallest entry that is large enough. -/
theorem search_sorted (sizes : List Nat) (size : Nat) (hs : sizes.Pairwise (· ≤ ·)) :
    ∀ (fuel : Nat) (left right : Int),
    0 ≤ left → left ≤ sizes.length → right < sizes.length → right - left + 2 ≤ fuel → 1 ≤ fuel →
    (∀ (j : Nat) (x : Nat), (j : Int) < left → sizes[j]? = some x → x < size) →
    (∀ (j : Nat) (x : Nat), right < (j : Int) → sizes[j]? = some x → size ≤ x) →
    (search sizes size fuel left right = .ok none ∧ ∀ x ∈ sizes, x < size) ∨
    ∃ i x, search sizes size fuel left right = .ok (some i) ∧ sizes[i]? = some x ∧ size ≤ x ∧
      ∀ y ∈ sizes, size ≤ y → x ≤ y
  | 0, _, _, _, _, _, _, h, _, _ => by omega
  | fuel + 1, left, right, h0, hl, hr, hf, _, ha, hb => by
    have hmono : ∀ (i j x y : Nat), i ≤ j → sizes[i]? = some x → sizes[j]? = some y → x ≤ y := by
      intro i j x y hij hx hy
      obtain ⟨hi, hx⟩ := List.getElem?_eq_some_iff.1 hx
      obtain ⟨hj, hy⟩ := List.getElem?_eq_some_iff.1 hy
      subst hx hy
      by_cases he : i = j
      · subst he; exact Nat.le_refl _
      · exact List.pairwise_iff_getElem.1 hs i j hi hj (by omega)
    unfold search
    by_cases hlr : left > right
    · rw [if_pos hlr]
      by_cases hlen : left.toNat < sizes.length
      · rw [if_pos hlen]
        right
        refine ⟨_, sizes[left.toNat], rfl, List.getElem?_eq_getElem hlen,
          hb left.toNat _ (by omega) (List.getElem?_eq_getElem hlen), ?_⟩
        intro y hy hsy
        obtain ⟨j, hj, hjy⟩ := List.mem_iff_getElem.1 hy
        have hjy' : sizes[j]? = some y := by rw [List.getElem?_eq_getElem hj, hjy]
        by_cases hjl : (j : Int) < left
        · have := ha j y hjl hjy'; omega
        · exact hmono left.toNat j _ _ (by omega) (List.getElem?_eq_getElem hlen) hjy'
      · rw [if_neg hlen]
        left
        refine ⟨rfl, ?_⟩
        intro x hx
        obtain ⟨j, hj, hjx⟩ := List.mem_iff_getElem.1 hx
        exact ha j x (by omega) (by rw [List.getElem?_eq_getElem hj, hjx])
    · rw [if_neg hlr]
      dsimp only
      have hidx : ((left + right) / 2).toNat < sizes.length := by omega
      rw [List.getElem?_eq_getElem hidx]
      dsimp only
      have hel := List.getElem?_eq_getElem hidx
      split
      · rename_i hlt
        refine search_sorted sizes size hs fuel _ _ (by omega) (by omega) hr (by omega) (by omega)
          ?_ hb
        intro j x hj hx
        have := hmono j _ x _ (by omega) hx hel
        omega
      · split
        · rename_i hgt
          refine search_sorted sizes size hs fuel _ _ h0 hl (by omega) (by omega) (by omega) ha ?_
          intro j x hj hx
          have := hmono _ j _ x (by omega) hel hx
          omega
        · right
          refine ⟨_, _, rfl, hel, by omega, ?_⟩
          intro y hy hsy
          omega

theorem pool_search_range (bp : Pool) (n : Nat) :
    search (bp.slots.map (·.size)) (n + autoHdr) (bp.slots.length + 1) 0
      ((bp.slots.length : Int) - 1) = .ok none ∨
    ∃ i s, search (bp.slots.map (·.size)) (n + autoHdr) (bp.slots.length + 1) 0
      ((bp.slots.length : Int) - 1) = .ok (some i) ∧ bp.slots[i]? = some s := by
  rcases search_range (bp.slots.map (·.size)) (n + autoHdr) (bp.slots.length + 1) 0
      ((bp.slots.length : Int) - 1) (by omega) (by simp) (by simp; omega) (by omega) (by omega)
    with h | ⟨i, h, hi⟩
  · exact Or.inl h
  · rw [List.length_map] at hi
    exact Or.inr ⟨i, _, h, List.getElem?_eq_getElem hi⟩

/-! ## Invariant -/

theorem inv_init (pageSize : Nat) (sizes : List Nat) (budget : Nat) (hp : 0 < pageSize) :
    Inv sizes budget { bp := create pageSize sizes budget, live := [], chunks := [], other := 0,
                       hdr := fun _ => 0 } := by
  have hslot : ∀ s ∈ sizes.map (initSlot pageSize), SlotOk s ∧ slotRegs s = [(0, 0)] := by
    intro s hs
    obtain ⟨n, _, rfl⟩ := List.mem_map.1 hs
    simp only [initSlot]
    refine ⟨⟨by dsimp only; split <;> omega, ?_, by simp⟩, by simp [slotRegs]⟩
    dsimp only
    generalize (if n < 8 then 8 else n) = m
    have h1 := Nat.div_add_mod (m * 4 + pageSize - 1) pageSize
    have h2 := Nat.mod_lt (m * 4 + pageSize - 1) hp
    rw [Nat.mul_comm] at h1
    omega
  have hreg : ∀ r ∈ (sizes.map (initSlot pageSize)).flatMap slotRegs, r = (0, 0) := by
    intro r hr
    obtain ⟨s, hs, hr⟩ := List.mem_flatMap.1 hr
    rw [(hslot s hs).2] at hr
    simpa using hr
  refine ⟨?_, fun s hs => (hslot s hs).1, ?_, ?_, List.Pairwise.nil, by simp [create], by simp, by simp⟩
  · simp only [create, List.map_map, slotSizes]
    apply List.map_congr_left
    intro n _
    simp [initSlot, Function.comp]
  · simp only [regions, List.map_nil, List.nil_append, create]
    rw [List.pairwise_iff_forall_sublist]
    intro a b hab
    have := hreg a (hab.subset (by simp))
    subst this
    exact Or.inl rfl
  · intro r hr
    simp only [regions, List.map_nil, List.nil_append, create] at hr
    rw [hreg r hr]
    exact Or.inl rfl

theorem inv_step {sizes : List Nat} {budget : Nat} {w : World} {op : Op}
    (hi : Inv sizes budget w) (hok : op.ok w) :
    ∃ r w', step w op = .ok (r, w') ∧ Inv sizes budget w' ∧
      (∀ e, r = some e → w'.live = e :: w.live ∧ ∀ f ∈ w.live, Disj (entryReg e) (entryReg f)) := by
  cases op with
  | alloc index fresh =>
    cases hslot : w.bp.slots[index]? with
    | none =>
      refine ⟨none, w, ?_, hi, (fun e h => nomatch h)⟩
      simp [step, alloc, hslot, newChunk]
    | some s =>
      have hc : ∀ c, fresh = some c → ∀ d ∈ w.chunks, Disj (c, s.alloc) d := by
        intro c hfc d hd
        subst hfc
        have := hok d hd
        simpa [wanted, hslot] using this
      have hsm : s ∈ w.bp.slots := List.mem_of_getElem? hslot
      rcases allocInternal_none (m := w.bp.memLimit) (fresh := fresh) (hi.slots s hsm)
        with ⟨p, isNew, s', m', h⟩ | ⟨h, _⟩
      · obtain ⟨h1, h2⟩ := inv_alloc hi hslot hc h false w.hdr (fun _ _ => rfl) (fun h => nomatch h)
        refine ⟨some { ptr := p, slot := index, size := s.size, auto := false }, _, ?_, h1, ?_⟩
        · simp only [step, alloc, hslot, h, getSize, Option.map_some, Option.toList_some,
            List.singleton_append]
        · intro e he
          cases he
          exact ⟨rfl, h2⟩
      · refine ⟨none, w, ?_, hi, (fun e h => nomatch h)⟩
        have hset : w.bp.slots.set index s = w.bp.slots := by
          obtain ⟨a, b⟩ := split_at hslot
          rw [b s]; exact a.symm
        simp [step, alloc, hslot, h, newChunk, hset]
  | freeList index es =>
    obtain ⟨h1, h2⟩ := hok
    refine ⟨none, _, rfl, inv_free hi h1 h2, (fun e h => nomatch h)⟩
  | autoAlloc n fresh =>
    rcases pool_search_range w.bp n with hs | ⟨index, s, hs, hslot⟩
    · refine ⟨none, w, ?_, hi, (fun e h => nomatch h)⟩
      simp only [step, autoAlloc, hs]
    · have hc : ∀ c, fresh = some c → ∀ d ∈ w.chunks, Disj (c, s.alloc) d := by
        intro c hfc d hd
        subst hfc
        have := hok d hd
        simpa [wanted, hs, hslot] using this
      have hsm : s ∈ w.bp.slots := List.mem_of_getElem? hslot
      rcases allocInternal_none (m := w.bp.memLimit) (fresh := fresh) (hi.slots s hsm)
        with ⟨p, isNew, s', m', h⟩ | ⟨h, _⟩
      · obtain ⟨h1, h2⟩ := inv_alloc hi hslot hc h true (fun a => if a = p then index else w.hdr a)
          (fun a ha => by simp [ha]) (fun _ => by simp)
        refine ⟨some { ptr := p, slot := index, size := s.size, auto := true }, _, ?_, h1, ?_⟩
        · simp only [step, autoAlloc, hs, alloc, hslot, h, getSize, Option.map_some]
        · intro e he
          cases he
          exact ⟨rfl, h2⟩
      · refine ⟨none, w, ?_, hi, (fun e h => nomatch h)⟩
        have hset : w.bp.slots.set index s = w.bp.slots := by
          obtain ⟨a, b⟩ := split_at hslot
          rw [b s]; exact a.symm
        simp [step, autoAlloc, hs, alloc, hslot, h, hset]
  | autoFree p =>
    obtain ⟨e, he, hp, ha⟩ := hok
    have hh := hi.hdr e he ha
    rw [hp] at hh
    have hfil : w.live.filter (fun x => x.ptr != p) = w.live.filter (fun x => !([e] : List Entry).contains x) := by
      apply List.filter_congr
      intro x hx
      -- two live entries with the same address are equal
      by_cases hxe : x = e
      · subst hxe; simp [hp]
      · have : x.ptr ≠ p := by
          intro hxp
          have hsz : ∀ e ∈ w.live, 8 ≤ e.size := by
            intro e he
            have h7 := hi.entry e he
            rw [← hi.szs, List.getElem?_map] at h7
            cases hsl : w.bp.slots[e.slot]? with
            | none => rw [hsl] at h7; exact nomatch h7
            | some t =>
              rw [hsl] at h7
              simp only [Option.map_some, Option.some.injEq] at h7
              rw [← h7]; exact (hi.slots t (List.mem_of_getElem? hsl)).min
          have h3 : w.live.Pairwise (fun a b => Disj (entryReg a) (entryReg b)) := by
            have := (List.pairwise_append.1 hi.disj).1
            rwa [List.pairwise_map] at this
          have hdis : ∀ {l : List Entry}, l.Pairwise (fun a b => Disj (entryReg a) (entryReg b)) →
              ∀ a ∈ l, ∀ b ∈ l, a ≠ b → Disj (entryReg a) (entryReg b) := by
            intro l hl
            induction hl with
            | nil => intro a ha; exact nomatch ha
            | cons hx _ ih =>
              intro a ha b hb hne
              rcases List.mem_cons.1 ha with h1 | h1 <;> rcases List.mem_cons.1 hb with h2 | h2
              · exact absurd (h1.trans h2.symm) hne
              · subst h1; exact hx b h2
              · subst h2; exact disj_symm (hx a h1)
              · exact ih a h1 b h2 hne
          have := hdis h3 x hx e he hxe
          have a1 := hsz x hx
          have a2 := hsz e he
          unfold Disj entryReg at this
          simp only at this
          omega
        simp [this, hxe]
    refine ⟨none, _, rfl, ?_, (fun e h => nomatch h)⟩
    · have := inv_free hi (index := w.hdr p) (es := [e]) (by simp)
        (by intro x hx; simp at hx; subst hx; exact ⟨he, hh.symm⟩)
      simp only [List.map_cons, List.map_nil, hp] at this
      rw [hfil]
      exact this
  | envTake n =>
    obtain ⟨i1, i2, i3, i4, i5, i6, i7, i8⟩ := hi
    have hn : n ≤ w.bp.memLimit := hok
    refine ⟨none, _, rfl, ⟨i1, i2, i3, i4, i5, ?_, i7, i8⟩, (fun e h => nomatch h)⟩
    show (w.chunks.map (·.2)).sum + (w.bp.memLimit - n) + (w.other + n) = budget
    omega
  | envGive n =>
    obtain ⟨i1, i2, i3, i4, i5, i6, i7, i8⟩ := hi
    have hn : n ≤ w.other := hok
    refine ⟨none, _, rfl, ⟨i1, i2, i3, i4, i5, ?_, i7, i8⟩, (fun e h => nomatch h)⟩
    show (w.chunks.map (·.2)).sum + (w.bp.memLimit + n) + (w.other - n) = budget
    omega

theorem inv_reach {pageSize : Nat} {sizes : List Nat} {budget : Nat} {w : World}
    (hp : 0 < pageSize) (h : Reach pageSize sizes budget w) : Inv sizes budget w := by
  induction h with
  | init => exact inv_init _ _ _ hp
  | step _ hok hs ih =>
    obtain ⟨r', w'', e, hi, _⟩ := inv_step ih hok
    rw [e] at hs
    simp only [Res.ok.injEq, Prod.mk.injEq] at hs
    rw [← hs.2]; exact hi

/-! ## C08 -/

/-- C08: at every reachable state the buffers handed out do not overlap, each has the size of its
slot and lies in memory obtained from the system, and the memory obtained from the system together
with what the other users of the budget hold never exceeds the budget. -/
theorem pool_safe {pageSize : Nat} {sizes : List Nat} {budget : Nat} {w : World}
    (hp : 0 < pageSize) (h : Reach pageSize sizes budget w) :
    (w.live.map entryReg).Pairwise Disj ∧
    (∀ e ∈ w.live, ∃ n, sizes[e.slot]? = some n ∧ e.size = max n 8 ∧
      ∃ c ∈ w.chunks, c.1 ≤ e.ptr ∧ e.ptr + e.size ≤ c.1 + c.2) ∧
    w.chunks.Pairwise Disj ∧
    (w.chunks.map (·.2)).sum + w.other ≤ budget ∧
    (w.chunks.map (·.2)).sum + w.other + w.bp.memLimit = budget := by
  have hi := inv_reach hp h
  have hm := hi.mem
  refine ⟨(List.pairwise_append.1 hi.disj).1, ?_, hi.cdisj, by omega, by omega⟩
  intro e he
  have h7 := hi.entry e he
  simp only [slotSizes, List.getElem?_map] at h7
  cases hs : sizes[e.slot]? with
  | none => rw [hs] at h7; exact nomatch h7
  | some n =>
    rw [hs] at h7
    simp only [Option.map_some, Option.some.injEq] at h7
    have hsz : e.size = max n 8 := by rw [← h7]; split <;> omega
    refine ⟨n, rfl, hsz, ?_⟩
    rcases hi.inside (entryReg e) (by
      simp only [regions, List.mem_append, List.mem_map]; exact Or.inl ⟨e, he, rfl⟩) with h0 | h0
    · simp only [entryReg] at h0; omega
    · exact h0

/-- C08: no call of a well behaved caller is undefined behaviour; an allocation returns a buffer
that does not overlap any buffer handed out before; nothing else is handed out or taken away,
except what is freed. -/
theorem step_exact {pageSize : Nat} {sizes : List Nat} {budget : Nat} {w : World} {op : Op}
    (hp : 0 < pageSize) (h : Reach pageSize sizes budget w) (hok : op.ok w) :
    ∃ r w', step w op = .ok (r, w') ∧
      match r with
      | some e => w'.live = e :: w.live ∧ ∀ f ∈ w.live, Disj (entryReg e) (entryReg f)
      | none => match op with
        | .freeList _ es => ∀ f, f ∈ w'.live ↔ f ∈ w.live ∧ f ∉ es
        | .autoFree p => ∀ f, f ∈ w'.live ↔ f ∈ w.live ∧ f.ptr ≠ p
        | _ => w'.live = w.live := by
  obtain ⟨r, w', e, _, h1⟩ := inv_step (inv_reach hp h) hok
  refine ⟨r, w', e, ?_⟩
  cases r with
  | some x => exact h1 x rfl
  | none =>
    cases op with
    | alloc i f =>
      simp only [step] at e
      split at e
      · simp only [Res.ok.injEq, Prod.mk.injEq, Option.map_eq_none_iff] at e
        obtain ⟨e1, e2⟩ := e
        subst e1 e2
        simp
      · exact nomatch e
      · exact nomatch e
    | autoAlloc n f =>
      simp only [step] at e
      split at e
      · simp only [Res.ok.injEq, Prod.mk.injEq] at e
        rw [← e.2]
      · simp at e
      · exact nomatch e
      · exact nomatch e
    | freeList i es =>
      simp only [step, Res.ok.injEq, Prod.mk.injEq, true_and] at e
      rw [← e]
      intro f
      simp
    | autoFree p =>
      simp only [step, Res.ok.injEq, Prod.mk.injEq, true_and] at e
      rw [← e]
      intro f
      simp
    | envTake n => cases e; rfl
    | envGive n => cases e; rfl

/-- C08: an allocation that fails did not change the pool; it fails only for an invalid slot, for
lack of budget, or because the system has no memory (and then no buffer of the slot is unused). -/
theorem alloc_fails_only {pageSize : Nat} {sizes : List Nat} {budget : Nat} {w w' : World}
    {i : Nat} {fresh : Option Nat} (hp : 0 < pageSize) (h : Reach pageSize sizes budget w)
    (hs : step w (.alloc i fresh) = .ok (none, w')) :
    w'.bp = w.bp ∧ w'.live = w.live ∧
    (sizes[i]? = none ∨ ∃ s, w.bp.slots[i]? = some s ∧ s.free = [] ∧
      (w.bp.memLimit < s.alloc ∨ fresh = none)) := by
  have hi := inv_reach hp h
  simp only [step, alloc] at hs
  cases hslot : w.bp.slots[i]? with
  | none =>
    rw [hslot] at hs
    simp only [Option.map_none, Option.toList_none, List.nil_append, Res.ok.injEq, Prod.mk.injEq,
      true_and] at hs
    subst hs
    refine ⟨rfl, rfl, Or.inl ?_⟩
    have : w.bp.slots.length = sizes.length := by
      have := congrArg List.length hi.szs
      simpa [slotSizes] using this
    rw [List.getElem?_eq_none_iff] at hslot ⊢
    omega
  | some s =>
    rw [hslot] at hs
    dsimp only at hs
    have hsm : s ∈ w.bp.slots := List.mem_of_getElem? hslot
    rcases allocInternal_none (m := w.bp.memLimit) (fresh := fresh) (hi.slots s hsm)
      with ⟨p, isNew, s', m', h⟩ | ⟨h, h2, _, h3⟩
    · rw [h] at hs; simp at hs
    · have hset : w.bp.slots.set i s = w.bp.slots := by
        obtain ⟨a, b⟩ := split_at hslot
        rw [b s]; exact a.symm
      rw [h] at hs
      simp only [hset, Option.map_none, Option.toList_none, List.nil_append, Res.ok.injEq,
        Prod.mk.injEq, true_and] at hs
      subst hs
      exact ⟨rfl, rfl, Or.inr ⟨s, rfl, h2, h3⟩⟩

/-! ## C09 -/

theorem slotSizes_sorted {sizes : List Nat} (h : sizes.Pairwise (· ≤ ·)) :
    (slotSizes sizes).Pairwise (· ≤ ·) := by
  unfold slotSizes
  rw [List.pairwise_map]
  exact h.imp (fun hab => by split <;> split <;> omega)

/-- C09: with a sorted table of slot sizes, allocating `n` bytes by size takes the smallest slot
that holds `n` bytes and the four byte header; it gives up without changing anything only when no
slot is large enough, or when the chosen slot cannot allocate. -/
theorem auto_alloc_best_fit {pageSize : Nat} {sizes : List Nat} {budget : Nat} {w w' : World}
    {n : Nat} {fresh : Option Nat} {r : Option Entry} (hp : 0 < pageSize)
    (hsorted : sizes.Pairwise (· ≤ ·)) (h : Reach pageSize sizes budget w)
    (hs : step w (.autoAlloc n fresh) = .ok (r, w')) :
    match r with
    | some e => n + 4 ≤ e.size ∧ (slotSizes sizes)[e.slot]? = some e.size ∧
        (∀ m ∈ slotSizes sizes, n + 4 ≤ m → e.size ≤ m) ∧ e.auto = true ∧ w'.hdr e.ptr = e.slot
    | none => w'.bp = w.bp ∧ w'.live = w.live ∧ ((∀ m ∈ slotSizes sizes, m < n + 4) ∨
        ∃ i x, (slotSizes sizes)[i]? = some x ∧ n + 4 ≤ x ∧
          (∀ m ∈ slotSizes sizes, n + 4 ≤ m → x ≤ m) ∧
          step w (.alloc i fresh) = .ok (none, w')) := by
  have hi := inv_reach hp h
  have hlen : w.bp.slots.length = (slotSizes sizes).length := by
    have := congrArg List.length hi.szs
    simpa using this
  have hsearch := search_sorted (slotSizes sizes) (n + autoHdr) (slotSizes_sorted hsorted)
    (w.bp.slots.length + 1) 0 ((w.bp.slots.length : Int) - 1) (by omega) (by omega) (by omega)
    (by omega) (by omega) (by intro j x hj; omega)
    (by intro j x hj hx
        have := (List.getElem?_eq_some_iff.1 hx).1
        omega)
  rw [← hi.szs] at hsearch
  simp only [step, autoAlloc] at hs
  rcases hsearch with ⟨h1, h2⟩ | ⟨i, x, h1, h2, h3, h4⟩
  · rw [h1] at hs
    simp only [Res.ok.injEq, Prod.mk.injEq] at hs
    obtain ⟨hr, hw⟩ := hs
    subst hr hw
    refine ⟨rfl, rfl, Or.inl ?_⟩
    rw [← hi.szs]; exact h2
  · rw [h1] at hs
    dsimp only at hs
    rw [hi.szs] at h2 h4
    have hslot : ∃ s, w.bp.slots[i]? = some s ∧ s.size = x := by
      rw [← hi.szs, List.getElem?_map] at h2
      cases hsl : w.bp.slots[i]? with
      | none => rw [hsl] at h2; exact nomatch h2
      | some s => rw [hsl] at h2; exact ⟨s, rfl, by simpa using h2⟩
    obtain ⟨s, hslot, hsx⟩ := hslot
    have hsm : s ∈ w.bp.slots := List.mem_of_getElem? hslot
    rcases allocInternal_none (m := w.bp.memLimit) (fresh := fresh) (hi.slots s hsm)
      with ⟨p, isNew, s', m', ha⟩ | ⟨ha, _⟩
    · simp only [alloc, hslot, ha, Option.map_some, Res.ok.injEq, Prod.mk.injEq] at hs
      obtain ⟨hr, hw⟩ := hs
      subst hr hw
      have hgs : getSize w.bp i = x := by simp [getSize, hslot, hsx]
      dsimp only
      rw [hgs]
      exact ⟨h3, h2, h4, rfl, by simp⟩
    · have hset : w.bp.slots.set i s = w.bp.slots := by
        obtain ⟨a, b⟩ := split_at hslot
        rw [b s]; exact a.symm
      simp only [alloc, hslot, ha, Option.map_none, hset, Res.ok.injEq, Prod.mk.injEq] at hs
      obtain ⟨hr, hw⟩ := hs
      subst hr hw
      refine ⟨rfl, rfl, Or.inr ⟨i, x, h2, h3, h4, ?_⟩⟩
      simp [step, alloc, hslot, ha, hset, newChunk]

/-- C09: freeing a buffer that was allocated by size returns it to the slot it was taken from, at
the end of that slot's free list, and changes no other slot. -/
theorem auto_free_same_slot {pageSize : Nat} {sizes : List Nat} {budget : Nat} {w : World}
    {e : Entry} (hp : 0 < pageSize) (h : Reach pageSize sizes budget w)
    (he : e ∈ w.live) (ha : e.auto = true) :
    ∃ w' s, step w (.autoFree e.ptr) = .ok (none, w') ∧ w.bp.slots[e.slot]? = some s ∧
      w'.bp.slots[e.slot]? = some { s with free := s.free ++ [e.ptr] } ∧
      ∀ j, j ≠ e.slot → w'.bp.slots[j]? = w.bp.slots[j]? := by
  have hi := inv_reach hp h
  have hh := hi.hdr e he ha
  have h7 := hi.entry e he
  rw [← hi.szs, List.getElem?_map] at h7
  cases hsl : w.bp.slots[e.slot]? with
  | none => rw [hsl] at h7; exact nomatch h7
  | some s =>
    refine ⟨_, s, rfl, rfl, ?_, ?_⟩
    · simp only [hh, freeList, hsl, freeInternal]
      have := (List.getElem?_eq_some_iff.1 hsl).1
      simp [this]
    · intro j hj
      simp only [hh, freeList, hsl]
      rw [List.getElem?_set_ne (Ne.symm hj)]

/-- A reachable state: two slots, one buffer by index and one by size, the first one freed. -/
example : ∃ w, Reach 4096 [10, 100] 20000 w ∧
    w.live = [{ ptr := 8192, slot := 1, size := 100, auto := true }] ∧
    w.chunks = [(8192, 4096), (4096, 4096)] ∧ w.bp.memLimit = 11808 := by
  have h0 := Reach.init (pageSize := 4096) (sizes := [10, 100]) (budget := 20000)
  have h1 := Reach.step (op := .alloc 0 (some 4096)) h0 (by intro d hd; exact nomatch hd) rfl
  have h2 := Reach.step (op := .autoAlloc 50 (some 8192)) h1 (by
    intro d hd
    have : d = (4096, 4096) := by simpa [newChunk, initSlot, create] using hd
    subst this; right; right; right; decide) rfl
  have h3 := Reach.step (op := .freeList 0 [{ ptr := 4096, slot := 0, size := 10, auto := false }])
    h2 ⟨by simp, by
      intro e he
      simp only [List.mem_singleton] at he
      subst he
      exact ⟨List.mem_cons_of_mem _ (List.mem_cons_self ..), rfl⟩⟩ rfl
  exact ⟨_, h3, rfl, rfl, rfl⟩

end Verif.BlockPool
