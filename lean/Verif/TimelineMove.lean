import Verif.TimelineProps

/-!
# Timelines: what an operation on the channel is for one timeline
-/

namespace Verif.Timeline

open Verif.SegmentList (SL Iter Seg Inv seq segs ahead AddOk sub32 add32)

/-- The timeline `t'` is what the operation makes of the timeline `t`. -/
def Moved (s : Ch) (op : Op) (t t' : Tl) : Prop :=
  match op with
  | .update _ c m => t' = t ∨ ∃ c' m' a, validate c m = .ok (c', m') ∧ t' = { t with conf := { c' with active := a }, man := { t.man with conf := m' } }
  | .get _ now => t' = t ∨ ∃ min', inactiveRemove s.segs now s.scale t 0 = .ok (t', min')
  | .add now time idx dur force => ∃ sl min min' ex, SegmentList.add s.segs.sl true idx time dur = .ok sl ∧
      addOne { s.segs with sl } now s.scale (time + (dur / 2 : Nat)) time idx dur force t min = .ok (t', min', ex)
  | .updateLast dur => ∃ sl, SegmentList.updateLast s.segs.sl dur = .ok sl ∧ updTl { s.segs with sl } s.lastIdx dur t = .ok t'
  | .truncate now idx => truncTl s.segs now idx t = .ok t'
  | .cleanup now => t' = t ∨ ∃ min min', inactiveRemove s.segs now s.scale t min = .ok (t', min')
  | _ => t' = t

/-- The timeline was made by the operation. -/
def Made (s : Ch) (op : Op) (t' : Tl) : Prop :=
  ∃ c m now, op = .create c m now ∧ ∃ c' m' a, validate c m = .ok (c', m') ∧ t'.id = s.lastId + 1 ∧ t'.periods = [] ∧ t'.conf = { c' with active := a } ∧ t'.man.conf = m' ∧
    t'.man.target = 0 ∧ t'.man.targetSegs = 0 ∧ t'.man.segCount = 0 ∧ t'.man.sequence = s.next

theorem bind_eq_ok {α β : Type} {a : Res α} {f : α → Res β} {b : β} (h : (a >>= f) = .ok b) : ∃ x, a = .ok x ∧ f x = .ok b := by
  cases a with
  | ok x => exact ⟨x, rfl, h⟩
  | err => exact nomatch h
  | ub => exact nomatch h

theorem onTl_moved {id : Nat} {f : Tl → Res Tl} : ∀ {ts ts' : List Tl}, onTl id f ts = .ok ts' → ∀ t' ∈ ts', ∃ t ∈ ts, t' = t ∨ f t = .ok t'
  | [], ts', h, t', ht => by
    rw [onTl] at h; injection h with h; rw [← h] at ht; exact absurd ht List.not_mem_nil
  | t :: ts, ts', h, t', ht => by
    rw [onTl] at h
    split at h
    · obtain ⟨x, h1, h2⟩ := bind_eq_ok h
      injection h2 with h2
      rw [← h2] at ht
      rcases List.mem_cons.1 ht with e | ht
      · exact ⟨t, List.mem_cons_self, .inr (by rw [e]; exact h1)⟩
      · exact ⟨t', List.mem_cons_of_mem _ ht, .inl rfl⟩
    · obtain ⟨x, h1, h2⟩ := bind_eq_ok h
      injection h2 with h2
      rw [← h2] at ht
      rcases List.mem_cons.1 ht with e | ht
      · exact ⟨t, List.mem_cons_self, .inl e⟩
      · obtain ⟨u, hu, k⟩ := onTl_moved h1 t' ht
        exact ⟨u, List.mem_cons_of_mem _ hu, k⟩

theorem addAll_moved {q : Segs} {now mid time : Int} {scale idx dur : Nat} {force : Bool} : ∀ {ts ts' : List Tl} {min min' : Nat} {ex : Bool},
    addAll q now scale mid time idx dur force ts min = .ok (ts', min', ex) →
    ∀ t' ∈ ts', ∃ t ∈ ts, ∃ min min' ex, addOne q now scale mid time idx dur force t min = .ok (t', min', ex)
  | [], ts', min, min', ex, h, t', ht => by
    rw [addAll] at h; injection h with h; injection h with h; rw [← h] at ht; exact absurd ht List.not_mem_nil
  | t :: ts, ts', min, min', ex, h, t', ht => by
    rw [addAll] at h
    obtain ⟨⟨x, m1, e1⟩, h1, h⟩ := bind_eq_ok h
    obtain ⟨⟨xs, m2, e2⟩, h2, h⟩ := bind_eq_ok h
    injection h with h
    injection h with h h3
    rw [← h] at ht
    rcases List.mem_cons.1 ht with e | ht
    · exact ⟨t, List.mem_cons_self, _, _, _, by rw [e]; exact h1⟩
    · obtain ⟨u, hu, k⟩ := addAll_moved h2 t' ht
      exact ⟨u, List.mem_cons_of_mem _ hu, k⟩

theorem updAll_moved {q : Segs} {idx dur : Nat} : ∀ {ts ts' : List Tl}, updAll q idx dur ts = .ok ts' →
    ∀ t' ∈ ts', ∃ t ∈ ts, updTl q idx dur t = .ok t'
  | [], ts', h, t', ht => by
    rw [updAll] at h; injection h with h; rw [← h] at ht; exact absurd ht List.not_mem_nil
  | t :: ts, ts', h, t', ht => by
    rw [updAll] at h
    obtain ⟨x, h1, h⟩ := bind_eq_ok h
    obtain ⟨xs, h2, h⟩ := bind_eq_ok h
    injection h with h
    rw [← h] at ht
    rcases List.mem_cons.1 ht with e | ht
    · exact ⟨t, List.mem_cons_self, by rw [e]; exact h1⟩
    · obtain ⟨u, hu, k⟩ := updAll_moved h2 t' ht
      exact ⟨u, List.mem_cons_of_mem _ hu, k⟩

theorem truncAll_moved {q : Segs} {now : Int} {idx : Nat} : ∀ {ts ts' : List Tl}, truncAll q now idx ts = .ok ts' →
    ∀ t' ∈ ts', ∃ t ∈ ts, truncTl q now idx t = .ok t'
  | [], ts', h, t', ht => by
    rw [truncAll] at h; injection h with h; rw [← h] at ht; exact absurd ht List.not_mem_nil
  | t :: ts, ts', h, t', ht => by
    rw [truncAll] at h
    obtain ⟨x, h1, h⟩ := bind_eq_ok h
    obtain ⟨xs, h2, h⟩ := bind_eq_ok h
    injection h with h
    rw [← h] at ht
    rcases List.mem_cons.1 ht with e | ht
    · exact ⟨t, List.mem_cons_self, by rw [e]; exact h1⟩
    · obtain ⟨u, hu, k⟩ := truncAll_moved h2 t' ht
      exact ⟨u, List.mem_cons_of_mem _ hu, k⟩

theorem cleanAll_moved {q : Segs} {now : Int} {scale : Nat} : ∀ {ts ts' : List Tl} {min min' : Nat}, cleanAll q now scale ts min = .ok (ts', min') →
    ∀ t' ∈ ts', ∃ t ∈ ts, ∃ min min', inactiveRemove q now scale t min = .ok (t', min')
  | [], ts', min, min', h, t', ht => by
    rw [cleanAll] at h; injection h with h; injection h with h; rw [← h] at ht; exact absurd ht List.not_mem_nil
  | t :: ts, ts', min, min', h, t', ht => by
    rw [cleanAll] at h
    obtain ⟨⟨x, m1⟩, h1, h⟩ := bind_eq_ok h
    obtain ⟨⟨xs, m2⟩, h2, h⟩ := bind_eq_ok h
    injection h with h
    injection h with h h3
    rw [← h] at ht
    rcases List.mem_cons.1 ht with e | ht
    · exact ⟨t, List.mem_cons_self, _, _, by rw [e]; exact h1⟩
    · obtain ⟨u, hu, k⟩ := cleanAll_moved h2 t' ht
      exact ⟨u, List.mem_cons_of_mem _ hu, k⟩

theorem step_moved {s s' : Ch} {op : Op} (h : step s op = .ok s') : ∀ t' ∈ s'.tls, (∃ t ∈ s.tls, Moved s op t t') ∨ Made s op t' := by
  intro t' ht
  cases op with
  | create c m now =>
    unfold step create at h
    dsimp only at h
    obtain ⟨⟨c', m'⟩, hv, h⟩ := bind_eq_ok h
    injection h with h
    rw [← h] at ht
    rcases List.mem_append.1 ht with ht | ht
    · exact .inl ⟨t', ht, rfl⟩
    · rw [List.mem_singleton.1 ht]
      exact .inr ⟨c, m, now, rfl, c', m', _, hv, rfl, rfl, rfl, rfl, rfl, rfl, rfl, rfl⟩
  | free id =>
    unfold step free at h
    injection h with h
    rw [← h] at ht
    exact .inl ⟨t', (List.mem_filter.1 ht).1, rfl⟩
  | update id c m =>
    unfold step update at h
    dsimp only at h
    obtain ⟨⟨c', m'⟩, hv, h⟩ := bind_eq_ok h
    obtain ⟨ts, h1, h⟩ := bind_eq_ok h
    injection h with h
    rw [← h] at ht
    obtain ⟨t, hm, k⟩ := onTl_moved h1 t' ht
    refine .inl ⟨t, hm, ?_⟩
    rcases k with k | k
    · exact .inl k
    · injection k with k; exact .inr ⟨c', m', _, hv, k.symm⟩
  | get id now =>
    unfold step get at h
    dsimp only at h
    obtain ⟨ts, h1, h⟩ := bind_eq_ok h
    injection h with h
    rw [← h] at ht
    obtain ⟨t, hm, k⟩ := onTl_moved h1 t' ht
    refine .inl ⟨t, hm, ?_⟩
    rcases k with k | k
    · exact .inl k
    · split at k
      · obtain ⟨⟨x, m'⟩, h2, k⟩ := bind_eq_ok k
        injection k with k
        exact .inr ⟨m', by rw [← k]; exact h2⟩
      · injection k with k; exact .inl k.symm
  | add now time idx dur force =>
    unfold step addSeg at h
    dsimp only at h
    split at h
    · exact nomatch h
    · obtain ⟨⟨x, ex⟩, h1, h⟩ := bind_eq_ok h
      obtain ⟨sl, h2, h1⟩ := bind_eq_ok h1
      obtain ⟨⟨tls, min, ex'⟩, h3, h1⟩ := bind_eq_ok h1
      injection h with h
      injection h1 with h1
      injection h1 with h1
      rw [← h, ← h1] at ht
      obtain ⟨t, hm, k⟩ := addAll_moved h3 t' ht
      obtain ⟨a, b, c, k⟩ := k
      exact .inl ⟨t, hm, sl, a, b, c, h2, k⟩
  | updateLast dur =>
    unfold step updateLast at h
    dsimp only at h
    split at h
    · exact nomatch h
    · obtain ⟨sl, h1, h⟩ := bind_eq_ok h
      obtain ⟨tls, h2, h⟩ := bind_eq_ok h
      injection h with h
      rw [← h] at ht
      obtain ⟨t, hm, k⟩ := updAll_moved h2 t' ht
      exact .inl ⟨t, hm, sl, h1, k⟩
  | truncate now idx =>
    unfold step truncate at h
    dsimp only at h
    obtain ⟨tls, h2, h⟩ := bind_eq_ok h
    injection h with h
    rw [← h] at ht
    obtain ⟨t, hm, k⟩ := truncAll_moved h2 t' ht
    exact .inl ⟨t, hm, k⟩
  | cleanup now =>
    unfold step cleanup at h
    dsimp only at h
    split at h
    · injection h with h; rw [← h] at ht; exact .inl ⟨t', ht, .inl rfl⟩
    · obtain ⟨⟨tls, m⟩, h2, h⟩ := bind_eq_ok h
      injection h with h
      rw [← h] at ht
      obtain ⟨t, hm, k⟩ := cleanAll_moved h2 t' ht
      exact .inl ⟨t, hm, .inr k⟩
  | next n =>
    unfold step at h
    injection h with h; rw [← h] at ht; exact .inl ⟨t', ht, rfl⟩
  | setActive b =>
    unfold step at h
    injection h with h; rw [← h] at ht; exact .inl ⟨t', ht, rfl⟩

/-- What adding a segment to a timeline consists of. -/
theorem addTl_parts {mono : Bool} {q : Segs} {sl : SL} {idx dur : Nat} {time : Int} (h : Inv mono q.sl)
    (ha : SegmentList.AddOk mono (segs q.sl) idx time dur) (hidx : idx < invalidIdx) (he : SegmentList.add q.sl true idx time dur = .ok sl) {t : Tl} (ht : TlInv q t)
    {b : Nat} (hb : Bnd (hi q) b t) (now : Int) (force : Bool) (min : Nat) {t' : Tl} {min' : Nat} {ex : Bool}
    (hadd : addTl { q with sl } now time idx dur force t min = .ok (t', min', ex)) :
    ∃ t2 t3, TlInv { q with sl } t2 ∧ Grow idx dur now (freshOf t time idx force) t t2 ∧ t2.man.firstIdx + t2.man.perCount < 2 ^ 32 ∧
      removeSegs { q with sl } now 0 0 t2 min = .ok (t3, min') ∧ TlInv { q with sl } t3 ∧ Cut t2 t3 ∧
      t'.periods = t3.periods ∧ rows t'.periods t'.man = rows t3.periods t3.man ∧ t'.man.segCount = t3.man.segCount ∧ t'.man.conf = t3.man.conf ∧
      t'.conf = t3.conf ∧
      t'.man.target = (if 0 < t3.man.segCount ∧ 0 < dur then manPostAdd t3.man dur else t3.man).target ∧
      t'.man.targetSegs = (if 0 < t3.man.segCount ∧ 0 < dur then manPostAdd t3.man dur else t3.man).targetSegs ∧ t'.id = t.id := by
  have hi1 := (SegmentList.add_spec h ha he).1
  have hhi : hi q ≤ idx := by
    unfold hi
    cases e : (segs q.sl).getLast? with
    | none => exact Nat.zero_le _
    | some g => have := (ha.1 g e).1; dsimp only; omega
  unfold invalidIdx at hidx
  obtain ⟨t1, t2, g1, g2, g3, g4⟩ := grow_spec h ha he ht now force
    (fun t1 => time + dur + lastCorr t1)
  have b1 := hb.per
  have p1 := g4.firstIdx
  have p2 := g4.perCount
  have hper : t2.man.firstIdx + t2.man.perCount ≤ idx + 1 := by split at p2 <;> omega
  obtain ⟨t3, m3, r1, r2, r3, r4⟩ := removeSegs_spec (now := now) (bc := 0) (bd := 0) (min := min) hi1 g3 (by omega)
  unfold addTl at hadd
  rw [g1] at hadd
  simp only [Res.bind_ok] at hadd
  rw [g2] at hadd
  simp only [Res.bind_ok] at hadd
  rw [r1] at hadd
  simp only [Res.bind_ok] at hadd
  split at hadd
  · rename_i hz
    injection hadd with hadd
    injection hadd with e1 e2
    injection e2 with e2
    subst e1 e2
    refine ⟨t2, t3, g3, g4, by omega, r1, r2, r3, ?_⟩
    rw [if_neg (by omega)]
    exact ⟨rfl, rfl, rfl, rfl, rfl, rfl, rfl, r3.id.trans g4.id⟩
  · rename_i hz
    injection hadd with hadd
    injection hadd with e1 e2
    injection e2 with e2
    subst e2
    refine ⟨t2, t3, g3, g4, by omega, r1, r2, r3, ?_⟩
    by_cases hd : dur > 0
    · rw [if_pos hd] at e1
      rw [if_pos ⟨by omega, hd⟩]
      subst e1
      exact ⟨rfl, rfl, rfl, rfl, rfl, rfl, rfl, r3.id.trans g4.id⟩
    · rw [if_neg hd] at e1
      rw [if_neg (by omega)]
      subst e1
      exact ⟨rfl, rfl, rfl, rfl, rfl, rfl, rfl, r3.id.trans g4.id⟩

end Verif.Timeline
