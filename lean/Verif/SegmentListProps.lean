import Verif.SegmentListRestore

/-!
# C25, C26 and C27: segments are found, by index and by time, also after a restart

The specification is a plain log of what was added. `Reach mono s H m`: after a history of calls the list is `s`, the log is
`H`, and `m` is the highest index up to which segments were given back. With `mono` the times of the segments do not go
back, as the segmenter makes them (ngx_live_segmenter.c:2354-2357).
-/

namespace Verif.SegmentList

/-- The histories of calls. What a call that fails does is nothing, so only calls that succeed are steps. -/
inductive Reach (mono : Bool) : SL → List Seg → Nat → Prop where
  | init : Reach mono init [] 0
  | add {s s' : SL} {H : List Seg} {m idx dur : Nat} {time : Int} {alloc : Bool} : Reach mono s H m → AddOk mono H idx time dur →
      add s alloc idx time dur = .ok s' → Reach mono s' (H ++ [⟨idx, time, dur⟩]) m
  | update {s s' : SL} {H : List Seg} {g : Seg} {m dur : Nat} : Reach mono s (H ++ [g]) m → dur < 2 ^ 32 → g.time + (dur : Nat) ≤ B →
      updateLast s dur = .ok s' → Reach mono s' (H ++ [{ g with dur }]) m
  | free {s : SL} {H : List Seg} {m : Nat} (x : Nat) : Reach mono s H m → Reach mono (freeNodes s x) H (max m x)
  | restored {s r r' : SL} {H H0 : List Seg} {m m0 alloc : Nat} {t : Tree} {sc : Scope} {bs : List Block} : mono = true →
      Reach mono s H m → (∀ g ∈ H, g.idx + 1 < 2 ^ 32) → m ≤ sc.min → sc.min ≤ sc.max → sc.max + 1 < 2 ^ 32 → TreeOf s t →
      writePeriods s t sc = .ok bs → Reach mono r H0 m0 → (∀ g ∈ H0, g.idx < sc.min) → readList r sc alloc (onDisk bs) = .ok r' →
      Reach mono r' (H0 ++ range sc H) m0

/-- The list holds the end of the log. -/
structure Rep (mono : Bool) (s : SL) (H : List Seg) (m : Nat) : Prop where
  inv : Inv mono s
  split : ∃ pre, H = pre ++ segs s ∧ ∀ g ∈ pre, g.idx < m
  some : H ≠ [] → segs s ≠ []
  sorted : H.Pairwise (fun g k => g.idx < k.idx)

theorem Rep.last {mono : Bool} {s : SL} {H : List Seg} {m : Nat} (h : Rep mono s H m) : H.getLast? = (segs s).getLast? := by
  obtain ⟨pre, e, _⟩ := h.split
  by_cases hH : H = []
  · rw [hH] at e
    have : segs s = [] := by
      have := congrArg List.length e
      simp at this
      exact List.eq_nil_of_length_eq_zero (by omega)
    rw [hH, this]
  · have := h.some hH
    rw [e, List.getLast?_append]
    cases hl : (segs s).getLast? with
    | none => exact absurd (List.getLast?_eq_none_iff.1 hl) this
    | some x => rfl

theorem AddOk.of_last {mono : Bool} {l l' : List Seg} {idx dur : Nat} {time : Int} (h : AddOk mono l idx time dur)
    (e : l.getLast? = l'.getLast?) : AddOk mono l' idx time dur := by
  unfold AddOk at *
  rw [← e]; exact h

theorem sorted_snoc {H : List Seg} {x : Seg} (h : H.Pairwise (fun g k => g.idx < k.idx)) (hl : ∀ g, H.getLast? = some g → g.idx < x.idx) :
    (H ++ [x]).Pairwise (fun g k => g.idx < k.idx) := by
  refine List.pairwise_append.2 ⟨h, by simp, fun g hg k hk => ?_⟩
  rw [List.mem_singleton.1 hk]
  rcases snoc_cases H with rfl | ⟨a, y, rfl⟩
  · exact absurd hg List.not_mem_nil
  · have := hl y (by simp)
    rcases List.mem_append.1 hg with hg | hg
    · have := (List.pairwise_append.1 h).2.2 g hg y (by simp); omega
    · rw [List.mem_singleton.1 hg]; exact this

theorem Rep.range {mono : Bool} {s : SL} {H : List Seg} {m : Nat} (h : Rep mono s H m) {sc : Scope} (hm : m ≤ sc.min) :
    SegmentList.range sc (segs s) = SegmentList.range sc H := by
  obtain ⟨pre, e, hp⟩ := h.split
  rw [e, range_append, range_low (l := pre) (fun g hg => by have := hp g hg; omega), List.nil_append]

theorem mem_range {sc : Scope} {l : List Seg} {g : Seg} : g ∈ range sc l ↔ g ∈ l ∧ sc.min ≤ g.idx ∧ g.idx ≤ sc.max := by
  unfold range; simp

theorem Rep.sub {mono : Bool} {s : SL} {H : List Seg} {m : Nat} (h : Rep mono s H m) : ∀ g ∈ segs s, g ∈ H := by
  obtain ⟨pre, e, _⟩ := h.split
  intro g hg; rw [e]; exact List.mem_append_right _ hg

theorem reach_rep {mono : Bool} {s : SL} {H : List Seg} {m : Nat} (h : Reach mono s H m) : Rep mono s H m := by
  induction h with
  | init => exact ⟨inv_init mono, ⟨[], rfl, fun _ h => absurd h List.not_mem_nil⟩, fun h => absurd rfl h, .nil⟩
  | @add s s' H m idx dur time alloc _ ha he ih =>
    obtain ⟨h1, h2⟩ := add_spec ih.inv (ha.of_last ih.last) he
    obtain ⟨pre, e, hp⟩ := ih.split
    exact ⟨h1, ⟨pre, by rw [h2, ← List.append_assoc, ← e], hp⟩, fun _ => by rw [h2]; simp, sorted_snoc ih.sorted (fun g hg => (ha.1 g hg).1)⟩
  | @update s s' H g m dur _ hd hB he ih =>
    obtain ⟨pre, e, hp⟩ := ih.split
    have hne := ih.some (by simp)
    rcases snoc_cases (segs s) with hs | ⟨a, x, hs⟩
    · exact absurd hs hne
    · rw [hs, ← List.append_assoc] at e
      have e' := List.append_inj' e rfl
      obtain ⟨e1, e2⟩ := e'
      injection e2 with e2 _
      subst e2
      obtain ⟨h1, h2, _⟩ := update_spec ih.inv hd hs hB he
      refine ⟨h1, ⟨pre, by rw [h2, e1, List.append_assoc], hp⟩, fun _ => by rw [h2]; simp, ?_⟩
      have hs' := ih.sorted
      obtain ⟨p1, p2, p3⟩ := List.pairwise_append.1 hs'
      exact List.pairwise_append.2 ⟨p1, by simp, fun u hu v hv => by
        rw [List.mem_singleton.1 hv]; exact p3 u hu g (by simp)⟩
  | @free s H m x _ ih =>
    obtain ⟨h1, pre', e', hp', hn'⟩ := free_spec ih.inv x
    obtain ⟨pre, e, hp⟩ := ih.split
    refine ⟨h1, ⟨pre ++ pre', by rw [List.append_assoc, ← e', ← e], fun g hg => ?_⟩, fun hH => hn' (ih.some hH), ih.sorted⟩
    rcases List.mem_append.1 hg with hg | hg
    · have := hp g hg; omega
    · have := hp' g hg; omega
  | @restored s r r' H H0 m m0 alloc t sc bs hmo _ hH hm hsc hM ht hw _ hH0 he ih ih0 =>
    subst hmo
    obtain ⟨h1, h2⟩ := restore_ok ih.inv ht (fun g hg => hH g (ih.sub g hg)) hsc hM hw ih0.inv
      (fun g hg => by have := hH0 g (ih0.sub g hg); omega) he
    rw [ih.range hm] at h2
    obtain ⟨pre, e, hp⟩ := ih0.split
    refine ⟨h1, ⟨pre, by rw [h2, ← List.append_assoc, ← e], hp⟩, fun hne => ?_, ?_⟩
    · rw [h2]
      intro hz
      obtain ⟨z1, z2⟩ := List.append_eq_nil_iff.1 hz
      rw [z2, List.append_nil] at hne
      exact ih0.some hne z1
    · refine List.pairwise_append.2 ⟨ih0.sorted, ih.sorted.filter _, fun g hg k hk => ?_⟩
      have := hH0 g hg
      have := (mem_range.1 hk).2
      omega

/-- A segment that was not given back is in the list, with all after it. -/
theorem Rep.kept {mono : Bool} {s : SL} {A C H : List Seg} {g : Seg} {m : Nat} (h : Rep mono s H m) (e : H = A ++ g :: C) (hm : m ≤ g.idx) :
    ∃ a, segs s = a ++ g :: C := by
  obtain ⟨pre, e', hp⟩ := h.split
  rw [e] at e'
  have hl : pre.length ≤ A.length := by
    refine Nat.le_of_not_lt fun hlt => ?_
    have h1 : (A ++ g :: C)[A.length]? = .some g := by simp
    rw [e', List.getElem?_append_left hlt] at h1
    have := hp g (List.mem_of_getElem? h1)
    omega
  have h2 := congrArg (List.drop pre.length) e'
  rw [List.drop_left, List.drop_append_of_le_length hl] at h2
  exact ⟨_, h2.symm⟩

/-! ## C25 -/

/-- A segment that was not given back: the lookup of its index gives its time, and an iterator from which the durations of
this segment and of all later ones are read, in order. For every shape of the tree. -/
theorem lookup_exact {mono : Bool} {s : SL} {H A C : List Seg} {g : Seg} {m : Nat} {t : Tree} (hr : Reach mono s H m) (ht : TreeOf s t)
    (hH : H = A ++ g :: C) (hm : m ≤ g.idx) (strict : Bool) :
    ∃ it, iterInit s t g.idx strict = .ok (it, g.time) ∧
      ∀ k, k ≤ C.length + 1 → takeN s k it = .ok (((g :: C).map (·.dur)).take k) := by
  have h := reach_rep hr
  obtain ⟨a, ha⟩ := h.kept hH hm
  obtain ⟨it, h1, h2, h3⟩ := iterInit_found h.inv ht ha strict
  refine ⟨it, h1, fun k hk => ?_⟩
  rw [← h3]
  exact takeN_spec h.inv k h2 (by rw [h3]; simpa using hk)

/-- An index that no segment was added with is not found. -/
theorem lookup_missing {mono : Bool} {s : SL} {H : List Seg} {m x : Nat} {t : Tree} (hr : Reach mono s H m) (ht : TreeOf s t)
    (hx : ∀ g ∈ H, g.idx ≠ x) : iterInit s t x true = .err := by
  have h := reach_rep hr
  obtain ⟨pre, e, _⟩ := h.split
  exact iterInit_missing h.inv ht (fun g hg => hx g (by rw [e]; exact List.mem_append_right _ hg))

/-- When the index need not be exact: the first segment from this index on, and an error when there is none. -/
theorem lookup_next {mono : Bool} {s : SL} {H : List Seg} {m x : Nat} {t : Tree} (hr : Reach mono s H m) (ht : TreeOf s t) (hm : m ≤ x) :
    (iterInit s t x false = .err ∧ ∀ g ∈ H, g.idx < x) ∨
    ∃ A g C it, H = A ++ g :: C ∧ (∀ k ∈ A, k.idx < x) ∧ x ≤ g.idx ∧ iterInit s t x false = .ok (it, g.time) ∧
      ∀ k, k ≤ C.length + 1 → takeN s k it = .ok (((g :: C).map (·.dur)).take k) := by
  have h := reach_rep hr
  obtain ⟨pre, e, hp⟩ := h.split
  by_cases hx : ∃ g ∈ H, g.idx = x
  · right
    obtain ⟨g, hg, rfl⟩ := hx
    obtain ⟨A, C, hs⟩ := List.append_of_mem hg
    obtain ⟨it, h1, h2⟩ := lookup_exact hr ht hs hm false
    refine ⟨A, g, C, it, hs, fun k hk => ?_, Nat.le_refl _, h1, h2⟩
    have hso := h.sorted
    rw [hs] at hso
    exact (List.pairwise_append.1 hso).2.2 k hk g (by simp)
  · have hx' : ∀ g ∈ segs s, g.idx ≠ x := fun g hg eq => hx ⟨g, by rw [e]; exact List.mem_append_right _ hg, eq⟩
    rcases iterInit_next h.inv ht hx' with ⟨h1, h2⟩ | ⟨a, g, c, i, n, h1, h2, h3, h4, h5, h6, h7, h8⟩
    · left
      refine ⟨h1, fun g hg => ?_⟩
      rw [e] at hg
      rcases List.mem_append.1 hg with hg | hg
      · have := hp g hg; omega
      · exact h2 g hg
    · right
      refine ⟨pre ++ a, g, c, ⟨i, 0, 0⟩, by rw [List.append_assoc, ← h1]; exact e, fun k hk => ?_, Nat.le_of_lt h3, h6, fun k hk => ?_⟩
      · rcases List.mem_append.1 hk with hk | hk
        · have := hp k hk; omega
        · exact h2 k hk
      · rw [← h8]
        exact takeN_spec h.inv k h7 (by rw [h8]; simpa using hk)

/-- Reading by runs: the runs are the durations. -/
theorem runs_exact {mono : Bool} {s : SL} {H : List Seg} {m : Nat} {it : Iter} (hr : Reach mono s H m) (hi : it.Ok s) :
    (ahead s it = [] ∧ getElement s it = .ub) ∨
    ∃ e it', getElement s it = .ok (e, it') ∧ 0 < e.count ∧ it'.Ok s ∧ ahead s it = List.replicate e.count e.dur ++ ahead s it' := by
  rcases getElement_spec (reach_rep hr).inv hi with h | ⟨e, it', h1, h2, h3, h4⟩
  · exact .inl h
  · exact .inr ⟨e, it', h1, h3, h4, h2⟩

/-- The number of segments the list says it has is right, and they are the end of the log. -/
theorem counts_exact {mono : Bool} {s : SL} {H : List Seg} {m : Nat} (hr : Reach mono s H m) :
    ∃ pre kept, H = pre ++ kept ∧ (∀ g ∈ pre, g.idx < m) ∧ s.segCount = kept.length := by
  have h := reach_rep hr
  obtain ⟨pre, e, hp⟩ := h.split
  exact ⟨pre, segs s, e, hp, h.inv.cs⟩

/-- Adding works whenever a node can be allocated, and never has undefined behaviour. -/
theorem add_defined {mono : Bool} {s : SL} {H : List Seg} {m idx dur : Nat} {time : Int} (hr : Reach mono s H m)
    (ha : AddOk mono H idx time dur) : (∃ s', add s true idx time dur = .ok s') ∧ add s false idx time dur ≠ .ub := by
  have h := reach_rep hr
  obtain ⟨_, _, _, a4, a5⟩ := ha
  have ei : i64 (time + (dur : Nat)) = .ok (time + (dur : Nat)) := i64_ok (by unfold B at *; omega) (by unfold B at *; omega)
  have hnode : ∀ p, ∃ s', addNode s true idx time dur p = .ok s' := fun p => ⟨_, by unfold addNode; rw [if_pos rfl, ei]; rfl⟩
  unfold add
  cases hn : s.nodes.getLast? with
  | none => exact ⟨hnode 0, by simp [addNode]⟩
  | some n =>
    obtain ⟨l, el⟩ := getLast_concat hn
    have ho := h.inv.ok n (by rw [el]; simp)
    dsimp only
    by_cases hc : time = s.lastTime ∧ idx = add32 n.last 1
    · rw [if_pos hc, if_pos hc]
      cases he : n.elts.getLast? with
      | none => exact absurd (List.getLast?_eq_none_iff.1 he) ho.ne
      | some e =>
        dsimp only
        by_cases h1 : e.dur = dur
        · rw [if_pos h1, if_pos h1, ei]; exact ⟨⟨_, rfl⟩, by simp⟩
        · rw [if_neg h1, if_neg h1]
          by_cases h2 : n.elts.length < maxElts
          · rw [if_pos h2, if_pos h2, ei]; exact ⟨⟨_, rfl⟩, by simp⟩
          · rw [if_neg h2, if_neg h2]; exact ⟨hnode _, by simp [addNode]⟩
    · rw [if_neg hc, if_neg hc]; exact ⟨hnode _, by simp [addNode]⟩

/-! ## C26 -/

/-- What is after a segment. -/
theorem after_unique {mono : Bool} {s : SL} (h : Inv mono s) {a a' c c' : List Seg} {g : Seg} (h1 : segs s = a' ++ g :: c')
    (ha : segs s = a ++ g :: c) : c' = c := by
  have hso := segs_sorted h
  have e1 := h1.symm.trans ha
  have hlen : a'.length = a.length := by
    have hs1 := hso
    rw [h1] at hs1
    have hs2 := hso
    rw [ha] at hs2
    rcases Nat.lt_trichotomy a'.length a.length with hl | hl | hl
    · exfalso
      have hz : (a' ++ g :: c')[a'.length]? = some g := by simp
      rw [e1, List.getElem?_append_left hl] at hz
      have := (List.pairwise_append.1 hs2).2.2 g (List.mem_of_getElem? hz) g (by simp)
      omega
    · exact hl
    · exfalso
      have hz : (a ++ g :: c)[a.length]? = some g := by simp
      rw [← e1, List.getElem?_append_left hl] at hz
      have := (List.pairwise_append.1 hs1).2.2 g (List.mem_of_getElem? hz) g (by simp)
      omega
  have := (List.append_inj e1 hlen).2
  injection this

/-- The time is in the segment. -/
def Seg.has (g : Seg) (x : Int) : Prop := g.time ≤ x ∧ x < g.time + (g.dur : Nat)

/-- A time in a segment that was not given back: this segment is found, with its index and start, and the iterator is at it.
No other segment has the time. -/
theorem contains_exact {s : SL} {H A C : List Seg} {g : Seg} {m : Nat} {t : Tree} {x : Int} (hr : Reach true s H m) (ht : TreeOf s t)
    (hH : H = A ++ g :: C) (hm : m ≤ g.idx) (hx : g.has x) :
    (∃ it, getSegmentIndex s t x false = .ok (g.idx, g.time, it) ∧
      ∀ k, k ≤ C.length + 1 → takeN s k it = .ok (((g :: C).map (·.dur)).take k)) ∧
    ∀ k ∈ H, m ≤ k.idx → k.has x → k = g := by
  have h := reach_rep hr
  obtain ⟨a, ha⟩ := h.kept hH hm
  have huniq : ∀ k ∈ segs s, k.has x → k = g := by
    intro k hk hkx
    have hp := segs_times h.inv
    rw [ha] at hp hk
    obtain ⟨_, p2, p3⟩ := List.pairwise_append.1 hp
    unfold Seg.has at *
    rcases List.mem_append.1 hk with hk | hk
    · have := p3 k hk g (by simp); omega
    · rcases List.mem_cons.1 hk with hk | hk
      · exact hk
      · have := (List.pairwise_cons.1 p2).1 k hk; omega
  constructor
  · rcases getSegmentIndex_spec h.inv ht x false with ⟨_, h2⟩ | ⟨a', g', c', q, it, h1, h2, h3, ⟨h4, h5⟩, ⟨h7, h8⟩, h6, _⟩
    · exact absurd hx (h2 g (by rw [ha]; simp))
    · have e := huniq g' (by rw [h1]; simp) (by unfold Seg.has; omega)
      subst e
      have hc := after_unique h.inv h1 ha
      have hu : up false q g'.dur = 0 := by unfold up; simp
      rw [hu] at h6
      refine ⟨it, by rw [h6]; simp, fun k hk => ?_⟩
      rw [← hc, ← h5]
      exact takeN_spec h.inv k h4 (by rw [h5, hc]; simpa using hk)
  · intro k hk hmk hkx
    obtain ⟨A', C', hs⟩ := List.append_of_mem hk
    obtain ⟨a', ha'⟩ := h.kept hs hmk
    exact huniq k (by rw [ha']; simp) hkx

/-- A time that is in no segment: an error, in both modes. -/
theorem contains_none {s : SL} {H : List Seg} {m : Nat} {t : Tree} {x : Int} (hr : Reach true s H m) (ht : TreeOf s t)
    (hx : ∀ g ∈ H, ¬ g.has x) (closest : Bool) : getSegmentIndex s t x closest = .err := by
  have h := reach_rep hr
  obtain ⟨pre, e, _⟩ := h.split
  rcases getSegmentIndex_spec h.inv ht x closest with ⟨h1, _⟩ | ⟨a', g', c', q, it, h1, h2, h3, ⟨h4, h5⟩, ⟨h7, h8⟩, h6, _⟩
  · exact h1
  · refine absurd ?_ (hx g' (by rw [e, h1]; simp))
    unfold Seg.has; omega

/-- How far a time is from the start of a segment. -/
def Seg.dist (g : Seg) (x : Int) : Nat := (x - g.time).natAbs

/-- The full statement for the closest mode: for a time in a segment the answer is a segment whose start is nearest. It
does not hold, see `closest_past_end`. -/
def ClosestExact (s : SL) (H : List Seg) (m : Nat) (t : Tree) (x : Int) : Prop :=
  ∀ g ∈ H, m ≤ g.idx → g.has x → ∃ k ∈ H, (∃ it, getSegmentIndex s t x true = .ok (k.idx, k.time, it)) ∧
    ∀ j ∈ H, m ≤ j.idx → k.dist x ≤ j.dist x

/-- The closest mode, for a time in a segment after which there is another one without a gap (in index and time): the answer
is a segment whose start is nearest, with its start time. Missing: the end of a period, and the end of the list. -/
theorem closest_partial {s : SL} {H A C : List Seg} {g n : Seg} {m : Nat} {t : Tree} {x : Int} (hr : Reach true s H m) (ht : TreeOf s t)
    (hH : H = A ++ g :: n :: C) (hm : m ≤ g.idx) (hx : g.has x) (hn : n.idx = g.idx + 1 ∧ n.time = g.time + (g.dur : Nat)) :
    ∃ A' k C', H = A' ++ k :: C' ∧ (∃ it, getSegmentIndex s t x true = .ok (k.idx, k.time, it) ∧
        ∀ i, i ≤ C'.length + 1 → takeN s i it = .ok (((k :: C').map (·.dur)).take i)) ∧
      ∀ j ∈ H, m ≤ j.idx → k.dist x ≤ j.dist x := by
  have h := reach_rep hr
  obtain ⟨a, ha⟩ := h.kept hH hm
  obtain ⟨_, huniq⟩ := contains_exact hr ht hH hm hx
  have hfar : ∀ j ∈ H, m ≤ j.idx → j.time ≤ g.time ∨ n.time ≤ j.time := by
    intro j hj hmj
    obtain ⟨A', C', hs⟩ := List.append_of_mem hj
    obtain ⟨a', ha'⟩ := h.kept hs hmj
    have hjs : j ∈ segs s := by rw [ha']; simp
    have hp := segs_times h.inv
    rw [ha] at hp hjs
    obtain ⟨_, p2, p3⟩ := List.pairwise_append.1 hp
    rcases List.mem_append.1 hjs with hj | hj
    · have := p3 j hj g (by simp); left; omega
    · rcases List.mem_cons.1 hj with hj | hj
      · left; rw [hj]; exact Int.le_refl _
      · right
        rcases List.mem_cons.1 hj with hj | hj
        · rw [hj]; exact Int.le_refl _
        · have := (List.pairwise_cons.1 (List.pairwise_cons.1 p2).2).1 j hj; omega
  rcases getSegmentIndex_spec h.inv ht x true with ⟨_, h2⟩ | ⟨a', g', c', q, it, h1, h2, h3, ⟨h4, h5⟩, ⟨h7, h8⟩, h6, _⟩
  · exact absurd hx (h2 g (by rw [ha]; simp))
  · have e : g' = g := by
      have hp := segs_times h.inv
      have hg' : g' ∈ segs s := by rw [h1]; simp
      rw [ha] at hp hg'
      obtain ⟨_, p2, p3⟩ := List.pairwise_append.1 hp
      unfold Seg.has at hx
      rcases List.mem_append.1 hg' with hk | hk
      · have := p3 g' hk g (by simp); omega
      · rcases List.mem_cons.1 hk with hk | hk
        · exact hk
        · have := (List.pairwise_cons.1 p2).1 g' hk; omega
    subst e
    have hc' := after_unique h.inv h1 ha
    unfold Seg.has at hx
    unfold Seg.dist
    have hq : q % g'.dur = q := Nat.mod_eq_of_lt h3
    by_cases hc : g'.dur ≤ q % g'.dur + g'.dur / 2
    · have hu : up true q g'.dur = 1 := by unfold up; rw [if_pos ⟨rfl, hc⟩]
      rw [hu] at h6
      rw [hc'] at h8
      refine ⟨A ++ [g'], n, C, by simp [hH], ⟨_, by rw [h6, hn.1, hn.2, Nat.one_mul], fun i hi => ?_⟩, fun j hj hmj => ?_⟩
      · rw [← h8]; exact takeN_spec h.inv i h7 (by rw [h8]; simpa using hi)
      have := hfar j hj hmj
      omega
    · have hu : up true q g'.dur = 0 := by unfold up; rw [if_neg (fun h => hc h.2)]
      rw [hu] at h6
      rw [hc'] at h5
      refine ⟨A, g', n :: C, hH, ⟨it, by rw [h6]; simp, fun i hi => ?_⟩, fun j hj hmj => ?_⟩
      · rw [← h5]; exact takeN_spec h.inv i h4 (by rw [h5]; simpa using hi)
      have := hfar j hj hmj
      omega

/-- In every case the closest mode answers with an end of the segment that has the time, the nearer one. -/
theorem closest_boundary {s : SL} {H A C : List Seg} {g : Seg} {m : Nat} {t : Tree} {x : Int} (hr : Reach true s H m) (ht : TreeOf s t)
    (hH : H = A ++ g :: C) (hm : m ≤ g.idx) (hx : g.has x) :
    ∃ it, (getSegmentIndex s t x true = .ok (g.idx, g.time, it) ∧ x - g.time ≤ g.time + (g.dur : Nat) - x) ∨
      (getSegmentIndex s t x true = .ok (g.idx + 1, g.time + (g.dur : Nat), it) ∧ g.time + (g.dur : Nat) - x ≤ x - g.time) := by
  have h := reach_rep hr
  obtain ⟨a, ha⟩ := h.kept hH hm
  rcases getSegmentIndex_spec h.inv ht x true with ⟨_, h2⟩ | ⟨a', g', c', q, it, h1, h2, h3, ⟨h4, h5⟩, ⟨h7, h8⟩, h6, _⟩
  · exact absurd hx (h2 g (by rw [ha]; simp))
  · have e : g' = g := by
      have hp := segs_times h.inv
      have hg' : g' ∈ segs s := by rw [h1]; simp
      rw [ha] at hp hg'
      obtain ⟨_, p2, p3⟩ := List.pairwise_append.1 hp
      unfold Seg.has at hx
      rcases List.mem_append.1 hg' with hk | hk
      · have := p3 g' hk g (by simp); omega
      · rcases List.mem_cons.1 hk with hk | hk
        · exact hk
        · have := (List.pairwise_cons.1 p2).1 g' hk; omega
    subst e
    have hq : q % g'.dur = q := Nat.mod_eq_of_lt h3
    by_cases hc : g'.dur ≤ q % g'.dur + g'.dur / 2
    · have hu : up true q g'.dur = 1 := by unfold up; rw [if_pos ⟨rfl, hc⟩]
      rw [hu, Nat.one_mul] at h6
      exact ⟨_, .inr ⟨h6, by omega⟩⟩
    · have hu : up true q g'.dur = 0 := by unfold up; rw [if_neg (fun h => hc h.2)]
      rw [hu] at h6
      exact ⟨_, .inl ⟨by rw [h6]; simp; rfl, by omega⟩⟩

/-! ## C27 -/

/-- The end of the period: from a segment to a later one there is no gap, then the answer is the end of the later one; else
an error. -/
theorem period_end_exact {mono : Bool} {s : SL} {H A M C : List Seg} {g k : Seg} {m : Nat} {t : Tree} (hr : Reach mono s H m) (ht : TreeOf s t)
    (hH : H = A ++ g :: M ++ C) (hl : (g :: M).getLast? = some k) (hm : m ≤ g.idx) (strict : Bool) :
    ∃ it, iterInit s t g.idx strict = .ok (it, g.time) ∧
      periodEnd s t it k.idx = if NoGap (g :: M) then .ok (k.time + (k.dur : Nat)) else .err := by
  have h := reach_rep hr
  obtain ⟨a, ha⟩ := h.kept (A := A) (C := M ++ C) (by rw [hH]; simp) hm
  obtain ⟨it, h1, _, _, n, e, h4, h5, h6, h7, h8, h9, h10⟩ := iterInit_at h.inv ht ha strict
  refine ⟨it, h1, periodEnd_spec h.inv ht (A := a) (C := C) (by rw [ha]; simp) hl h4 ?_⟩
  -- the segment is in the node of its index
  have hgs : g ∈ segs s := by rw [ha]; simp
  rw [segs_split h4] at hgs
  have hno := h.inv.ok n (List.mem_of_getElem? h4)
  have hp := Link.trans_idx h.inv.ok h.inv.link
  rw [get_split h4] at hp
  obtain ⟨_, p2, p3⟩ := List.pairwise_append.1 hp
  rcases List.mem_append.1 hgs with hg | hg
  · obtain ⟨u, hu, hgu⟩ := List.mem_flatMap.1 hg
    have := p3 u hu n (by simp)
    have := seq_mem _ _ _ g hgu
    have := (h.inv.ok u (List.mem_of_mem_take hu)).last
    omega
  · rcases List.mem_append.1 hg with hg | hg
    · exact hg
    · obtain ⟨u, hu, hgu⟩ := List.mem_flatMap.1 hg
      have := (List.pairwise_cons.1 p2).1 u hu
      have := seq_mem _ _ _ g hgu
      omega

theorem range_all {sc : Scope} {l : List Seg} (h : ∀ g ∈ l, sc.min ≤ g.idx ∧ g.idx ≤ sc.max) : range sc l = l := by
  unfold range
  rw [List.filter_eq_self]
  intro g hg
  simpa using h g hg

/-- A part of the log whose ends are in the range is in the range. -/
theorem range_mid {sc : Scope} {A M C : List Seg} {g k : Seg} (hs : (A ++ g :: M ++ C).Pairwise (fun g k => g.idx < k.idx))
    (hl : (g :: M).getLast? = some k) (hg : sc.min ≤ g.idx) (hk : k.idx ≤ sc.max) :
    range sc (A ++ g :: M ++ C) = range sc A ++ g :: M ++ range sc C := by
  rw [range_append, range_append, range_all (l := g :: M) (fun x hx => ?_)]
  obtain ⟨p1, _, _⟩ := List.pairwise_append.1 hs
  obtain ⟨_, p2, _⟩ := List.pairwise_append.1 p1
  constructor
  · rcases List.mem_cons.1 hx with hx | hx
    · rw [hx]; exact hg
    · have := (List.pairwise_cons.1 p2).1 x hx; omega
  · obtain ⟨M', eM⟩ := getLast_concat hl
    rw [eM] at hx p2
    rcases List.mem_append.1 hx with hx | hx
    · have := (List.pairwise_append.1 p2).2.2 x hx k (by simp); omega
    · rw [List.mem_singleton.1 hx]; exact hk

/-- The saved range, restored into an empty list: it can be read when there is memory, and what is read then are the
segments of the range, so that everything proved above holds of the list. -/
theorem save_restore {s : SL} {H : List Seg} {m : Nat} {t : Tree} {sc : Scope} (hr : Reach true s H m) (ht : TreeOf s t)
    (hH : ∀ g ∈ H, g.idx + 1 < 2 ^ 32) (hm : m ≤ sc.min) (hsc : sc.min ≤ sc.max) (hM : sc.max + 1 < 2 ^ 32) :
    ∃ bs, writePeriods s t sc = .ok bs ∧
      (∀ alloc r, readList init sc alloc (onDisk bs) = .ok r → Reach true r (range sc H) 0) ∧
      (∀ alloc, (∀ b ∈ bs, b.elts.length ≤ alloc) → ∃ r, readList init sc alloc (onDisk bs) = .ok r) := by
  have h := reach_rep hr
  have hb : ∀ g ∈ segs s, g.idx + 1 < 2 ^ 32 := fun g hg => hH g (h.sub g hg)
  obtain ⟨bs, w1, w2⟩ := write_spec h.inv ht hb hsc hM
  refine ⟨bs, w1, fun alloc r he => ?_, fun alloc ha => ?_⟩
  · exact Reach.restored rfl hr hH hm hsc hM ht w1 Reach.init (fun _ hx => absurd hx List.not_mem_nil) he
  · exact restore_def h.inv ht hb hsc hM w1 ha (inv_init _) (fun _ hx => absurd hx List.not_mem_nil) (fun hne => absurd rfl hne)

/-- After the restart every segment of the range has the time and duration it had, an index without segment is not found,
and the ends of the periods are the same. -/
theorem restored_same {s r : SL} {H : List Seg} {m alloc : Nat} {t tr : Tree} {sc : Scope} {bs : List Block} (hr : Reach true s H m)
    (ht : TreeOf s t) (htr : TreeOf r tr) (hH : ∀ g ∈ H, g.idx + 1 < 2 ^ 32) (hm : m ≤ sc.min) (hsc : sc.min ≤ sc.max)
    (hM : sc.max + 1 < 2 ^ 32) (hw : writePeriods s t sc = .ok bs) (he : readList init sc alloc (onDisk bs) = .ok r) :
    (∀ x, sc.min ≤ x → x ≤ sc.max → (iterInit s t x true = .err ∧ iterInit r tr x true = .err) ∨
      ∃ it it' time dur, iterInit s t x true = .ok (it, time) ∧ iterInit r tr x true = .ok (it', time) ∧
        takeN s 1 it = .ok [dur] ∧ takeN r 1 it' = .ok [dur]) ∧
    (∀ x y it it' a b, sc.min ≤ x → x ≤ y → y ≤ sc.max → (∃ g ∈ H, g.idx = y) →
      iterInit s t x true = .ok (it, a) → iterInit r tr x true = .ok (it', b) → periodEnd s t it y = periodEnd r tr it' y) ∧
    r.segCount = (range sc H).length := by
  have hrr : Reach true r (range sc H) 0 := Reach.restored rfl hr hH hm hsc hM ht hw Reach.init (fun _ hx => absurd hx List.not_mem_nil) he
  have h := reach_rep hr
  have hr' := reach_rep hrr
  refine ⟨fun x hx1 hx2 => ?_, fun x y it it' a b hx hxy hy hgy h1 h2 => ?_, ?_⟩
  · by_cases hx : ∃ g ∈ H, g.idx = x
    · right
      obtain ⟨g, hg, rfl⟩ := hx
      obtain ⟨A, C, hs⟩ := List.append_of_mem hg
      obtain ⟨A', C', hs'⟩ := List.append_of_mem (mem_range.2 ⟨hg, hx1, hx2⟩)
      obtain ⟨it, q1, q2⟩ := lookup_exact hr ht hs (by omega) true
      obtain ⟨it', q1', q2'⟩ := lookup_exact hrr htr hs' (by omega) true
      exact ⟨it, it', g.time, g.dur, q1, q1', q2 1 (by omega), q2' 1 (by omega)⟩
    · left
      refine ⟨lookup_missing hr ht (fun g hg e => hx ⟨g, hg, e⟩), lookup_missing hrr htr (fun g hg e => hx ⟨g, (mem_range.1 hg).1, e⟩)⟩
  · by_cases hgx : ∃ g ∈ H, g.idx = x
    · obtain ⟨g, hg, rfl⟩ := hgx
      obtain ⟨k, hk, rfl⟩ := hgy
      obtain ⟨A, C, hs⟩ := List.append_of_mem hg
      obtain ⟨M, C', hMC⟩ : ∃ M C', H = A ++ g :: M ++ C' ∧ (g :: M).getLast? = some k := by
        have hso := h.sorted
        rw [hs] at hk hso
        rcases List.mem_append.1 hk with hk | hk
        · have := (List.pairwise_append.1 hso).2.2 k hk g (by simp); omega
        · rcases List.mem_cons.1 hk with hk | hk
          · exact ⟨[], C, by simpa using hs, by rw [hk]; rfl⟩
          · obtain ⟨M, C', e⟩ := List.append_of_mem hk
            exact ⟨M ++ [k], C', by rw [hs, e]; simp, by rw [← List.cons_append, List.getLast?_append]; rfl⟩
      obtain ⟨hs1, hs2⟩ := hMC
      have hso := h.sorted
      rw [hs1] at hso
      obtain ⟨jt, z1, z2⟩ := period_end_exact hr ht hs1 hs2 (by omega) true
      obtain ⟨jt', z1', z2'⟩ := period_end_exact hrr htr (A := range sc A) (C := range sc C')
        (by rw [hs1]; exact range_mid hso hs2 hx hy) hs2 (by omega) true
      rw [h1] at z1
      rw [h2] at z1'
      injection z1 with z1
      injection z1' with z1'
      injection z1 with z1 _
      injection z1' with z1' _
      rw [z1, z1', z2, z2']
    · rw [lookup_missing hr ht (fun g hg e => hgx ⟨g, hg, e⟩)] at h1
      exact nomatch h1
  · obtain ⟨pre, kept, e, hp, hc⟩ := counts_exact hrr
    have : pre = [] := by
      cases pre with
      | nil => rfl
      | cons a l => have := hp a (by simp); omega
    rw [hc, e, this]; rfl

end Verif.SegmentList
