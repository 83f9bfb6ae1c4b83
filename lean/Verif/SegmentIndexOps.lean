import Verif.SegmentIndexFree

/-!
# What the operations on indexes preserve
-/

namespace Verif.SegmentIndex

theorem takeWhile_mem {α : Type} {p : α → Bool} : ∀ {l : List α} {x : α}, x ∈ l.takeWhile p → p x = true
  | [], _, h => by cases h
  | y :: l, x, h => by
    rw [List.takeWhile_cons] at h
    split at h
    · rcases List.mem_cons.1 h with rfl | h
      · assumption
      · exact takeWhile_mem h
    · cases h

/-! ## Retention -/

/-- The pending indexes are the same. -/
def SamePending (s s' : St) : Prop := ∀ x : Idx, x.persist = .none → (x ∈ s'.all ↔ x ∈ s.all)

theorem freeDone_inv {B n0 : Nat} {lim : List Nat} : ∀ (ks : List Nat) (s : St) (tr : Nat), Inv B n0 s lim → Ex tr s → ks.Pairwise (· < ·) →
    (∀ k ∈ ks, tr ≤ k ∧ k + s.force < s.next ∧ ∃ x ∈ s.all, x.key = k ∧ x.persist ≠ .none) →
    ∃ s' tr', freeKeys .retention ks s tr = .ok (s', tr') ∧ Inv B n0 s' lim ∧ Ex tr' s' ∧ Kept s s' ∧ SamePending s s'
  | [], s, tr, h, hE, _, _ => ⟨s, tr, rfl, h, hE, Kept.refl s, fun _ _ => Iff.rfl⟩
  | k :: ks, s, tr, h, hE, hs, hk => by
    obtain ⟨h1, h2, x, hx, rfl, hp⟩ := hk k (by simp)
    obtain ⟨hs1, hs2⟩ := List.pairwise_cons.1 hs
    obtain ⟨p, q, ha⟩ := List.append_of_mem hx
    have hrow := h.rows.row x hx
    obtain ⟨s', e, h', hkept, hall, hex⟩ := free_inv (why := .retention) (tr := tr) h ha (by omega) (fun _ => ⟨by
      cases hxp : x.persist with
      | none => exact absurd hxp hp
      | ok => exact ⟨_, hrow.ok hxp⟩
      | error => exact ⟨_, hrow.error hxp⟩, fun j hj1 hj2 => h.logs.all j (by have := hrow.low; omega) (by omega)⟩) (fun sn hsn =>
      absurd (hrow.snapNone sn hsn) hp)
    have hE' := hex tr _ hE (.inr ⟨h1, rfl⟩)
    have hnt : newTr x tr ≤ x.key := by unfold newTr; split <;> omega
    have hsp : SamePending s s' := by
      intro y hy
      rw [hall, ha]
      have : y ≠ x := fun h => hp (h ▸ hy)
      have : y ≠ gone x := fun h => hp (by rw [h] at hy; exact hy)
      split <;> simp [*]
    obtain ⟨s'', tr', e2, h2', hE2, hk2, hsp2⟩ := freeDone_inv ks s' (newTr x tr) h' hE' hs2 (fun k' hk' => by
      obtain ⟨h3, h4, y, hy, h5, h6⟩ := hk k' (by simp [hk'])
      have h7 := hs1 k' hk'
      refine ⟨by omega, by rw [hkept.force, hkept.next]; exact h4, y, ?_, h5, h6⟩
      rw [hall]
      rw [ha] at hy
      have : y ≠ x := fun h => by rw [h] at h5; omega
      simp only [List.mem_append, List.mem_cons, this, false_or] at hy ⊢
      exact hy.elim (fun h => .inl (.inl h)) .inr)
    refine ⟨s'', tr', ?_, h2', hE2, hkept.trans hk2, fun y hy => (hsp2 y hy).trans (hsp y hy)⟩
    unfold freeKeys
    rw [e, Res.bind_ok]
    exact e2

theorem truncated_inv {B n0 : Nat} {lim : List Nat} {s : St} {tr : Nat} (h : Inv B n0 s lim) (hE : Ex tr s) :
    Inv B n0 (truncated s tr) lim ∧ Ex 0 (truncated s tr) ∧ Kept s (truncated s tr) ∧ (truncated s tr).all = s.all := by
  unfold truncated
  by_cases h0 : tr = 0
  · rw [if_neg (by simp [h0])]
    exact ⟨h, h0 ▸ hE, Kept.refl s, rfl⟩
  · rw [if_pos h0]
    refine ⟨h.emit (hE.lost h0) trivial (fun _ _ _ h => by cases h), ⟨fun x hx hr => ?_, hE.trunc.cut, fun h => absurd rfl h, hE.honest.snoc trivial⟩,
      Kept.emit trivial (fun _ _ _ h => by cases h), rfl⟩
    obtain ⟨a, b, h1, h2⟩ := hr
    refine hE.flag x hx ⟨a, b, ?_, h2⟩
    rcases List.mem_append.1 h1 with h1 | h1
    · exact h1
    · cases List.mem_singleton.1 h1

theorem freeNonForced_inv {B n0 : Nat} {lim : List Nat} {s : St} {nf : Bool} {t : Nat} (h : Inv B n0 s lim) (hE : Ex t s)
    (ht : nf = true ∨ t = 0) :
    ∃ s', freeNonForced s nf = .ok s' ∧ Inv B n0 s' lim ∧ Ex t s' ∧ Kept s s' ∧ SamePending s s' ∧ (nf = true → s' = s) := by
  unfold freeNonForced
  have hsame : ∃ s', Res.ok s = Res.ok s' ∧ Inv B n0 s' lim ∧ Ex t s' ∧ Kept s s' ∧ SamePending s s' ∧ (nf = true → s' = s) :=
    ⟨s, rfl, h, hE, Kept.refl s, fun _ _ => Iff.rfl, fun _ => rfl⟩
  cases hl : s.last with
  | none => exact hsame
  | some l =>
    dsimp only
    by_cases hc : l < s.force ∨ nf = true
    · rw [if_pos hc]; exact hsame
    · rw [if_neg hc]
      have ht0 : t = 0 := ht.resolve_left fun h => hc (.inr h)
      have hlast := h.logs.last
      rw [hl] at hlast
      have hl2 : l + 1 = s.next := by
        split at hlast
        · cases hlast
        · injection hlast with hlast
          have := h.logs.low
          omega
      have hsort : (s.done.takeWhile fun k => decide (k ≤ l - s.force)).Pairwise (· < ·) := by
        rw [h.rows.done]
        exact (keysOf_sorted h.rows.sorted _).sublist (List.takeWhile_sublist _)
      subst ht0
      obtain ⟨s', tr', e, h1, h2, h3, h4⟩ := freeDone_inv _ s 0 h hE hsort (fun k hk => by
        have hm : k ∈ s.done := (List.takeWhile_sublist _).subset hk
        have hle : k ≤ l - s.force := by simpa using takeWhile_mem hk
        rw [h.rows.done] at hm
        obtain ⟨x, hx, hq, hkey⟩ := mem_keysOf.1 hm
        exact ⟨by omega, by omega, x, hx, hkey, by simpa using hq⟩)
      rw [e, Res.bind_ok]
      obtain ⟨g1, g2, g3, g4⟩ := truncated_inv h1 h2
      exact ⟨_, rfl, g1, g2, h3.trans g3, fun x hx => by rw [g4]; exact h4 x hx, fun h => absurd (.inr h) hc⟩

/-! ## Segments that leave the timelines -/

theorem freePrefix_inv {B n0 : Nat} {lim : List Nat} {t : Nat} : ∀ (xs : List Idx) (p q : List Idx) (s : St) (tr : Nat), Inv B n0 s lim → Ex t s →
    s.all = p ++ xs ++ q → (∀ y ∈ p, y.freed = true) → (∀ y ∈ xs, y.key < s.next) →
    ∃ s' tr', freeKeys .expired (xs.map (·.key)) s tr = .ok (s', tr') ∧ Inv B n0 s' lim ∧ Ex t s' ∧ Kept s s'
  | [], p, q, s, tr, h, hE, _, _, _ => ⟨s, tr, rfl, h, hE, Kept.refl s⟩
  | x :: xs, p, q, s, tr, h, hE, ha, hp, hn => by
    rw [List.append_assoc, List.cons_append] at ha
    have hx : x ∈ s.all := by rw [ha]; simp
    obtain ⟨s', e, h', hkept, hall, hex⟩ := free_inv (why := .expired) (tr := tr) h ha (hn x (by simp)) (fun h => by cases h) (fun sn hsn => by
      refine .inr fun i hi hc => Classical.byContradiction fun hns => ?_
      have hm : s.mode ≠ .off := fun hm => by rw [h.rows.off hm x hx] at hsn; cases hsn
      obtain ⟨y, hy, h1, h2, h3, h4⟩ := h.rows.unsettled hm i hc hns
      have hso := h.rows.sorted
      rw [ha] at hso hy
      obtain ⟨_, h5, h6⟩ := List.pairwise_append.1 hso
      rcases List.mem_append.1 hy with hy | hy
      · rw [hp y hy] at h3; cases h3
      · rcases List.mem_cons.1 hy with rfl | hy
        · omega
        · have := (List.pairwise_cons.1 h5).1 y hy; omega)
    have hE' := hex t t hE (.inl ⟨by simp, by simp, rfl⟩)
    obtain ⟨s'', tr', e2, h2', hE2, hk2⟩ := freePrefix_inv xs (p ++ if x.locks ≠ 0 then [gone x] else []) q s' (newTr x tr) h' hE'
      (by rw [hall, List.append_assoc, List.append_assoc, List.append_assoc]) (fun y hy => by
        rcases List.mem_append.1 hy with hy | hy
        · exact hp y hy
        · split at hy
          · rw [List.mem_singleton.1 hy]; rfl
          · cases hy) (fun y hy => by rw [hkept.next]; exact hn y (by simp [hy]))
    refine ⟨s'', tr', ?_, h2', hE2, hkept.trans hk2⟩
    rw [List.map_cons]
    unfold freeKeys
    rw [e, Res.bind_ok]
    exact e2

theorem segmentFree_inv {B n0 : Nat} {s : St} {min : Nat} (h : Inv B n0 s []) (hE : Ex 0 s) (hm : min ≤ s.next) :
    ∃ s', segmentFree s min = .ok s' ∧ Inv B n0 s' [] ∧ Ex 0 s' ∧ Kept { s with minIdx := min } s' := by
  have h1 : Inv B n0 { s with minIdx := min } [] := ⟨⟨h.rows.sorted, h.rows.row, h.rows.pending, h.rows.done, h.rows.unsettled, h.rows.off⟩,
    ⟨h.logs.good, h.logs.range, h.logs.ready, h.logs.all, h.logs.low, h.logs.last⟩, ⟨h.held.write, h.held.pend, h.held.mode, h.held.pendWrite⟩,
    ⟨h.nums.perm, h.nums.count⟩⟩
  have hE1 : Ex 0 { s with minIdx := min } := ⟨hE.flag, hE.trunc, hE.lost, hE.honest⟩
  obtain ⟨s', tr', e, h2, h3, h4⟩ := freePrefix_inv (s.all.takeWhile fun x => decide (x.key < min)) [] (s.all.dropWhile fun x => decide (x.key < min))
    { s with minIdx := min } 0 h1 hE1 (by simp) (by simp) (fun y hy => by
      have : y.key < min := by simpa using takeWhile_mem hy
      show y.key < s.next
      omega)
  refine ⟨s', ?_, h2, h3, h4⟩
  unfold segmentFree
  rw [e]; rfl

/-! ## New indexes -/

theorem create_inv {B n0 : Nat} {s : St} {k : Nat} (h : Inv B n0 s []) (hE : Ex 0 s) (hk : s.next ≤ k) (hl : ∀ x ∈ s.all, x.key < k) :
    Inv B n0 (create s k) [] ∧ Ex 0 (create s k) := by
  have hrep : ∀ ok, ¬ Reported s.log ok k := fun ok ⟨a, b, h1, h2, h3⟩ => by have := (h.logs.range a b ok h1).1; omega
  refine ⟨⟨⟨?_, fun x hx => ?_, ?_, ?_, fun hm i hc hs => ?_, fun hm x hx => ?_⟩,
    ⟨h.logs.good, h.logs.range, h.logs.ready, h.logs.all, h.logs.low, h.logs.last⟩, ⟨h.held.write, h.held.pend, h.held.mode, h.held.pendWrite⟩,
    ⟨?_, ?_⟩⟩, ⟨fun x hx hr => ?_, hE.trunc, hE.lost, hE.honest⟩⟩
  · refine List.pairwise_append.2 ⟨h.rows.sorted, List.pairwise_singleton _ _, fun x hx y hy => ?_⟩
    rw [List.mem_singleton.1 hy]; exact hl x hx
  · rcases List.mem_append.1 hx with hx | hx
    · exact h.rows.row x hx
    · rw [List.mem_singleton.1 hx]
      have := h.logs.low
      exact ⟨by show n0 ≤ k; omega, (fun h => by cases h), (fun h => by cases h), fun _ => rfl, (fun h => by cases h), (fun _ h => by cases h),
        (fun _ h => by cases h), (fun _ h => by cases h), (fun _ h => by cases h), (fun _ h => by cases h)⟩
  · show s.pending ++ [k] = keysOf (s.all ++ [_]) _
    rw [keysOf_append, h.rows.pending]; rfl
  · show s.done = keysOf (s.all ++ [_]) _
    rw [keysOf_append, ← h.rows.done]
    exact (List.append_nil _).symm
  · obtain ⟨x, hx, h1⟩ := h.rows.unsettled hm i hc hs
    exact ⟨x, List.mem_append_left _ hx, h1⟩
  · rcases List.mem_append.1 hx with hx | hx
    · exact h.rows.off hm x hx
    · rw [List.mem_singleton.1 hx]
  · refine List.Perm.trans ?_ h.nums.perm
    show (s.closed ++ (ids (s.all ++ [_]) ++ wid s.write ++ pid s.pend) ++ []).Perm (s.closed ++ (ids s.all ++ wid s.write ++ pid s.pend) ++ [])
    rw [ids_append, show ids [_] = [] from rfl, List.append_nil (ids s.all)]
  · show s.snapshots = (ids (s.all ++ [_]) ++ wid s.write ++ pid s.pend ++ []).length
    rw [ids_append, show ids [_] = [] from rfl, List.append_nil (ids s.all)]
    exact h.nums.count
  · rcases List.mem_append.1 hx with hx | hx
    · exact hE.flag x hx hr
    · rw [List.mem_singleton.1 hx] at hr
      exact absurd hr (hrep _)

theorem future_none {B n0 : Nat} {s : St} {l : List Nat} {x : Idx} (h : Inv B n0 s l) (hx : x ∈ s.all) (hk : s.next ≤ x.key) : x.persist = .none := by
  have hrow := h.rows.row x hx
  have hrep : ∀ ok, ¬ Reported s.log ok x.key := fun ok ⟨a, b, h1, h2, h3⟩ => by have := (h.logs.range a b ok h1).1; omega
  cases hp : x.persist with
  | none => rfl
  | ok => exact absurd (hrow.ok hp) (hrep _)
  | error => exact absurd (hrow.error hp) (hrep _)

theorem createSnap_inv {B n0 : Nat} {s s' : St} {x : Idx} (h : Inv B n0 s []) (hE : Ex 0 s) (hx : s.all.getLast? = some x) (hk : s.next ≤ x.key)
    (e : createSnap s = .ok s') : Inv B n0 s' [] ∧ Ex 0 s' := by
  unfold createSnap at e
  rw [hx] at e
  dsimp only at e
  split at e
  · cases e
  · rename_i hsn
    have hsn : x.snap = none := by cases hs : x.snap <;> simp [hs] at hsn ⊢
    split at e
    · injection e with e; subst e; exact ⟨h, hE⟩
    · rename_i hm
      injection e with e
      obtain ⟨p, ha⟩ := List.getLast?_eq_some_iff.1 hx
      have hmem : x ∈ s.all := by rw [ha]; simp
      have hrow := h.rows.row x hmem
      have hso := h.rows.sorted
      rw [ha] at hso
      obtain ⟨_, _, h6⟩ := List.pairwise_append.1 hso
      have h1 : Inv B n0 { s with made := s.made + 1, snapshots := s.snapshots + 1 } [s.made] := ⟨⟨h.rows.sorted, h.rows.row, h.rows.pending, h.rows.done,
        h.rows.unsettled, h.rows.off⟩, ⟨h.logs.good, h.logs.range, h.logs.ready, h.logs.all, h.logs.low, h.logs.last⟩,
        ⟨h.held.write, h.held.pend, h.held.mode, h.held.pendWrite⟩, ⟨by
          show (s.closed ++ live s ++ [s.made]).Perm (List.range (s.made + 1))
          rw [List.range_succ]
          have := h.nums.perm
          rw [List.append_nil] at this
          exact this.append_right _, by
          show s.snapshots + 1 = (live s ++ [s.made]).length
          have := h.nums.count
          rw [List.append_nil] at this
          rw [this]; simp⟩⟩
      have hset : setIdx s.all { x with snap := some ⟨x.key, ⟨s.made, x.key, none⟩⟩ } = p ++ [{ x with snap := some ⟨x.key, ⟨s.made, x.key, none⟩⟩ }] := by
        rw [ha]
        exact setIdx_split (k := x.key) rfl rfl (fun y hy => h6 y hy x (by simp)) (by simp)
      rw [hset] at e
      have h2 := h1.put (x' := { x with snap := some ⟨x.key, ⟨s.made, x.key, none⟩⟩ }) (q := []) (l' := []) ha rfl rfl
        ⟨hrow.low, hrow.ok, hrow.error, hrow.future, hrow.gone, fun sn _ => future_none (x := x) h hmem hk, (fun sn h => by injection h with h; rw [← h]),
          (fun sn h _ => by injection h with h; rw [← h]; exact ⟨rfl, rfl⟩), (fun sn _ hlt => absurd hlt (by show ¬ x.key < s.next; omega)),
          (fun sn h tb htb => by injection h with h; rw [← h] at htb; cases htb)⟩ (fun _ h => by rw [hsn] at h; cases h) (fun h => absurd h hm)
        (by rw [show sid x = [] by unfold sid; rw [hsn]; rfl]; exact List.Perm.refl _)
      rw [← e]
      refine ⟨h2, hE.acks (fun y hy => ?_) ⟨[], (List.append_nil _).symm, by simp⟩⟩
      rcases List.mem_append.1 hy with hy | hy
      · exact ⟨y, by rw [ha]; simp [hy], rfl, id⟩
      · rw [List.mem_singleton.1 hy]; exact ⟨x, hmem, rfl, id⟩

theorem lock_inv {B n0 : Nat} {s : St} {l : List Nat} {t : Nat} {x : Idx} {n : Nat} (h : Inv B n0 s l) (hE : Ex t s) (hf : find s.all x.key = some x) :
    Inv B n0 { s with all := setIdx s.all { x with locks := n } } l ∧ Ex t { s with all := setIdx s.all { x with locks := n } } ∧
      ∃ p q, s.all = p ++ x :: q ∧ setIdx s.all { x with locks := n } = p ++ { x with locks := n } :: q := by
  obtain ⟨p, q, ha, _, hp, hq⟩ := find_split hf h.rows.sorted
  have hset : setIdx s.all { x with locks := n } = p ++ { x with locks := n } :: q := by
    rw [ha]
    exact setIdx_split (x' := { x with locks := n }) (k := x.key) rfl rfl hp hq
  have hmem : x ∈ s.all := by rw [ha]; simp
  refine ⟨?_, ?_, p, q, ha, hset⟩
  · rw [hset]
    exact h.put ha rfl rfl ((h.rows.row x hmem).change rfl rfl (.inl rfl) .inl) (fun h1 h2 => .inl ⟨h1, h2⟩)
      (fun hm => h.rows.off hm x hmem) (List.Perm.refl _)
  · refine hE.acks (fun y hy => ?_) ⟨[], (List.append_nil _).symm, by simp⟩
    have hy : y ∈ setIdx s.all { x with locks := n } := hy
    rw [hset] at hy
    rcases List.mem_append.1 hy with hy | hy
    · exact ⟨y, by rw [ha]; simp [hy], rfl, id⟩
    · rcases List.mem_cons.1 hy with rfl | hy
      · exact ⟨x, hmem, rfl, id⟩
      · exact ⟨y, by rw [ha]; simp [hy], rfl, id⟩

end Verif.SegmentIndex
