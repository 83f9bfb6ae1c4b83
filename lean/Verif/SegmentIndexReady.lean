import Verif.SegmentIndexOps

/-!
# Completion of a segment
-/

namespace Verif.SegmentIndex

theorem Ex.emit {t : Nat} {s : St} {e : Ev} (h : Ex t s) (hn : NotLost e) (hp : ∀ a b, e ≠ .persisted a b true) : Ex t (emit s e) := by
  refine ⟨fun x hx hr => ?_, h.trunc.snoc hn, fun h0 => let ⟨w, hw⟩ := h.lost h0; ⟨w, List.mem_append_left _ hw⟩, h.honest.snoc hn⟩
  obtain ⟨a, b, h1, h2⟩ := hr
  refine h.flag x hx ⟨a, b, ?_, h2⟩
  rcases List.mem_append.1 h1 with h1 | h1
  · exact h1
  · exact absurd (List.mem_singleton.1 h1).symm (hp a b)

/-- The state after the event of a completion. -/
def readySt (s : St) (is : Bool) : St := emit { s with last := some s.next, next := s.next + 1 } (.ready s.next is (table s))

theorem readySt_old {s : St} {is : Bool} {i : Nat} (h : Completed (readySt s is).log i) : Completed s.log i ∨ (i = s.next ∧ is = true) := by
  obtain ⟨tb, h⟩ := h
  rcases List.mem_append.1 h with h | h
  · exact .inl ⟨tb, h⟩
  · injection List.mem_singleton.1 h with h1 h2
    exact .inr ⟨h1, h2.symm⟩

theorem readySt_sub {s : St} {is : Bool} : s.log ⊆ (readySt s is).log := List.subset_append_left _ _

theorem readySt_safe {B n0 : Nat} {s : St} {is : Bool} {fs : FSnap} (h : Logs B n0 s) (hs : Safe s.log fs) : Safe (readySt s is).log fs := by
  intro tb ht
  obtain ⟨h1, h2⟩ := hs tb ht
  refine ⟨readySt_sub h1, ?_⟩
  have := h.ready _ _ _ h1
  rcases h2 with h2 | h2
  · refine .inl fun i hi hc => ?_
    rcases readySt_old hc with hc | ⟨hc, _⟩
    · exact (h2 i hi hc).mono readySt_sub
    · omega
  · exact .inr (h2.mono readySt_sub)

theorem readySt_inv {B n0 : Nat} {s : St} {is : Bool} {x : Idx} {lim : List Nat} (h : Inv B n0 s lim) (hx : x ∈ s.all) (hk : x.key = s.next) (hf : x.freed = false)
    (hsn : s.mode ≠ .off → x.snap.isSome) : Inv B n0 (readySt s is) lim := by
  refine ⟨⟨h.rows.sorted, fun y hy => ?_, h.rows.pending, h.rows.done, fun hm i hc hs => ?_, h.rows.off⟩,
    ⟨?_, fun a b ok hp => ?_, fun k i tb hr => ?_, fun k h1 h2 => ?_, ?_, ?_⟩,
    ⟨fun m f hw => readySt_safe h.logs (h.held.write m f hw), fun p hp => readySt_safe h.logs (h.held.pend p hp), h.held.mode, h.held.pendWrite⟩,
    ⟨h.nums.perm, h.nums.count⟩⟩
  · have r := h.rows.row y hy
    refine ⟨r.low, fun e => (r.ok e).mono readySt_sub, fun e => (r.error e).mono readySt_sub, fun e => r.future (by
      have e : s.next + 1 ≤ y.key := e
      omega), fun e => (r.gone e).mono readySt_sub, r.snapNone, r.snapMax, fun sn e hn => r.snapFuture sn e (by
      have hn : s.next + 1 ≤ y.key := hn
      omega), fun sn e hn => ?_, fun sn e tb ht => readySt_sub (r.snapTable sn e tb ht)⟩
    have hn : y.key < s.next + 1 := hn
    show y.key ≤ sn.max ∧ sn.max < s.next + 1 ∧ _
    by_cases hy2 : y.key < s.next
    · obtain ⟨h1, h2, h3⟩ := r.snapPast sn e hy2
      refine ⟨h1, by omega, fun i h4 h5 h6 => ?_⟩
      rcases readySt_old h6 with h6 | ⟨h6, _⟩
      · exact (h3 i h4 h5 h6).mono readySt_sub
      · omega
    · obtain ⟨h1, _⟩ := r.snapFuture sn e (by omega)
      exact ⟨by omega, by omega, fun i h4 h5 => by omega⟩
  · rcases readySt_old hc with hc | ⟨hc, _⟩
    · exact h.rows.unsettled hm i hc fun h' => hs (h'.mono readySt_sub)
    · exact ⟨x, hx, by omega, future_none h hx (by omega), hf, hsn hm⟩
  · exact h.logs.good.snoc trivial
  · rcases List.mem_append.1 hp with hp | hp
    · obtain ⟨h1, h2⟩ := h.logs.range a b ok hp
      exact ⟨by show b ≤ s.next + 1; omega, h2⟩
    · cases List.mem_singleton.1 hp
  · show n0 ≤ k ∧ k < s.next + 1
    rcases List.mem_append.1 hr with hr | hr
    · have := h.logs.ready k i tb hr
      omega
    · injection List.mem_singleton.1 hr with hr
      have := h.logs.low
      omega
  · have h2 : k < s.next + 1 := h2
    by_cases hk2 : k < s.next
    · obtain ⟨i, tb, hr⟩ := h.logs.all k h1 hk2
      exact ⟨i, tb, readySt_sub hr⟩
    · exact ⟨is, table s, List.mem_append_right _ (by rw [show k = s.next by omega]; exact List.mem_singleton.2 rfl)⟩
  · have := h.logs.low
    show n0 ≤ s.next + 1
    omega
  · have := h.logs.low
    show some s.next = if s.next + 1 = n0 then none else some (s.next + 1 - 1)
    rw [if_neg (by omega)]; rfl

theorem readyIdx_inv {B n0 : Nat} {s : St} {is : Bool} {x : Idx} (h : Inv B n0 s []) (hE : Ex 0 s) (hx : x ∈ s.all) (hk : x.key = s.next) (hf : x.freed = false)
    (hsn : s.mode ≠ .off → x.snap.isSome) : ∃ s', readyIdx (readySt s is) x is = .ok s' ∧ Inv B n0 s' [] ∧ Ex 0 s' ∧ Kept (readySt s is) s' := by
  have h1 := readySt_inv (is := is) h hx hk hf hsn
  have hE1 : Ex 0 (readySt s is) := by
    have hE0 : Ex 0 { s with last := some s.next, next := s.next + 1 } := ⟨hE.flag, hE.trunc, hE.lost, hE.honest⟩
    exact hE0.emit trivial (fun _ _ h => by cases h)
  have hrow := h.rows.row x hx
  obtain ⟨p, q, ha⟩ := List.append_of_mem hx
  unfold readyIdx
  cases is with
  | false =>
    rw [if_pos rfl]
    obtain ⟨s', e, h2, h3, _, h5⟩ := free_inv (why := .unused) (tr := 0) h1 ha (by show x.key < s.next + 1; omega) (fun h => by cases h)
      (fun sn hs => .inl (hrow.snapFuture sn hs (by omega)).2)
    rw [e]
    exact ⟨s', rfl, h2, h5 0 0 hE1 (.inl ⟨by simp, by simp, rfl⟩), h3⟩
  | true =>
    rw [if_neg (by simp)]
    cases hs : x.snap with
    | none => exact ⟨_, rfl, h1, hE1, Kept.refl _⟩
    | some sn =>
      dsimp only
      have hso := h.rows.sorted
      rw [ha] at hso
      obtain ⟨_, h5, h6⟩ := List.pairwise_append.1 hso
      have hset : setIdx (readySt s true).all { x with snap := some { sn with fs := { sn.fs with table := some (table (readySt s true)) } } } =
          p ++ { x with snap := some { sn with fs := { sn.fs with table := some (table (readySt s true)) } } } :: q := by
        show setIdx s.all _ = _
        rw [ha]
        exact setIdx_split (k := x.key) rfl rfl (fun y hy => h6 y hy x (by simp)) (List.pairwise_cons.1 h5).1
      have hrow1 := h1.rows.row x hx
      have hm := (hrow.snapFuture sn hs (by omega)).1
      refine ⟨_, rfl, ?_, ?_, ⟨rfl, rfl, rfl, rfl, rfl, rfl, rfl, Grow.refl _, fun _ _ _ h => h⟩⟩
      · rw [hset]
        refine h1.put ha rfl rfl ⟨hrow1.low, hrow1.ok, hrow1.error, hrow1.future, hrow1.gone, fun _ _ => hrow1.snapNone sn hs, (fun sn' e => ?_),
          (fun sn' e hn => ?_), (fun sn' e => ?_), (fun sn' e tb ht => ?_)⟩ (fun h _ => .inl ⟨h, rfl⟩) (fun hm => ?_) ?_
        · injection e with e; rw [← e]; exact hrow1.snapMax sn hs
        · have hn : s.next + 1 ≤ x.key := hn
          omega
        · injection e with e; rw [← e]; exact hrow1.snapPast sn hs
        · injection e with e
          rw [← e] at ht ⊢
          injection ht with ht
          rw [← ht]
          show Ev.ready sn.max true (table s) ∈ s.log ++ [.ready s.next true (table s)]
          rw [hm, hk]
          simp
        · have := h1.rows.off hm x hx
          rw [hs] at this; cases this
        · unfold sid
          rw [hs]
          exact List.Perm.refl _
      · refine hE1.acks (fun y hy => ?_) ⟨[], (List.append_nil _).symm, by simp⟩
        have hy : y ∈ setIdx (readySt s true).all { x with snap := some { sn with fs := { sn.fs with table := some (table (readySt s true)) } } } := hy
        rw [hset] at hy
        show ∃ z ∈ s.all, _
        rw [ha]
        rcases List.mem_append.1 hy with hy | hy
        · exact ⟨y, by simp [hy], rfl, id⟩
        · rcases List.mem_cons.1 hy with rfl | hy
          · exact ⟨x, by simp, rfl, id⟩
          · exact ⟨y, by simp [hy], rfl, id⟩

theorem get_spec {s : St} {k : Nat} {x : Idx} (h : get s.all k = some x) (hs : s.all.Pairwise fun x y => x.key < y.key) :
    x ∈ s.all ∧ x.key = k ∧ x.freed = false ∧ find s.all k = some x := by
  unfold get at h
  rw [Option.filter_eq_some_iff] at h
  obtain ⟨p, q, ha, hk, _⟩ := find_split h.1 hs
  exact ⟨by rw [ha]; simp, hk, by simpa using h.2, h.1⟩

theorem ready_inv {B n0 : Nat} {s : St} {is : Bool} (h : Inv B n0 s []) (hE : Ex 0 s)
    (hsn : ∀ x, get s.all s.next = some x → s.mode ≠ .off → x.snap.isSome) :
    ready s is = .err ∨ ∃ s', ready s is = .ok s' ∧ Inv B n0 s' [] ∧ Ex 0 s' ∧ s'.mode = s.mode ∧ s'.force = s.force := by
  unfold ready
  cases hg : get s.all s.next with
  | none => exact .inl rfl
  | some x =>
    obtain ⟨hx, hk, hf, _⟩ := get_spec hg h.rows.sorted
    dsimp only
    have hlast := h.logs.last
    have hlow := h.logs.low
    have hno : late s.last x.key = false := by
      rw [hlast]
      split
      · rfl
      · simp [late]; omega
    rw [hno, if_neg (by simp)]
    obtain ⟨s1, e1, h1, hE1, hk1⟩ := readyIdx_inv (is := is) h hE hx hk hf (hsn x hg)
    have e0 : emit { s with last := some x.key, next := s.next + 1 } (.ready x.key is (table s)) = readySt s is := by
      rw [hk]; rfl
    rw [e0, e1, Res.bind_ok]
    obtain ⟨s2, e2, h2, hE2, hk2, _⟩ := freeNonForced_inv (nf := false) h1 hE1 (.inr rfl)
    rw [e2, Res.bind_ok]
    have hmf : s2.mode = s.mode ∧ s2.force = s.force := ⟨by rw [hk2.mode, hk1.mode]; rfl, by rw [hk2.force, hk1.force]; rfl⟩
    refine .inr ⟨_, rfl, ?_⟩
    by_cases h0 : s2.snapshots = 0
    · rw [if_pos h0]
      refine ⟨h2.emit (fun hm i hc => Classical.byContradiction fun hns => ?_) trivial (fun _ _ _ h => by cases h), hE2.emit trivial (fun _ _ h => by cases h), hmf⟩
      obtain ⟨y, hy, _, _, _, h4⟩ := h2.rows.unsettled hm i hc hns
      have hcnt := h2.nums.count
      rw [h0] at hcnt
      obtain ⟨p, q, ha⟩ := List.append_of_mem hy
      obtain ⟨sn, hsn⟩ := Option.isSome_iff_exists.1 h4
      unfold live at hcnt
      rw [ha, ids_append, ids_cons, hsn] at hcnt
      simp at hcnt
    · rw [if_neg h0]; exact ⟨h2, hE2, hmf⟩

end Verif.SegmentIndex
