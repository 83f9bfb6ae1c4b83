import Verif.TimelineUpd

/-!
# Timelines: what a player sees of a timeline, and how it changes
-/

namespace Verif.Timeline

open Verif.SegmentList (SL Iter Seg Inv seq segs ahead setLast)

/-- A segment of a playlist: its index, media sequence number and discontinuity sequence number. -/
structure Row where
  idx : Nat
  num : Nat
  disc : Nat
deriving Repr, DecidableEq

/-- Numbers are given in order. -/
def numbered : Nat → List (Nat × Nat) → List Row
  | _, [] => []
  | n, (i, d) :: r => ⟨i, n, d⟩ :: numbered (n + 1) r

/-- The playlist of a timeline. -/
def playlist (t : Tl) : List Row := numbered (t.man.sequence - t.man.segCount) (rows t.periods t.man)

theorem numbered_drop : ∀ (k n : Nat) (l : List (Nat × Nat)), numbered (n + k) (l.drop k) = (numbered n l).drop k
  | 0, _, _ => rfl
  | k + 1, n, [] => by simp [numbered]
  | k + 1, n, (i, d) :: l => by
    rw [List.drop_succ_cons, numbered, List.drop_succ_cons, ← numbered_drop k, show n + (k + 1) = n + 1 + k by omega]

theorem numbered_snoc : ∀ (n : Nat) (l : List (Nat × Nat)) (i d : Nat), numbered n (l ++ [(i, d)]) = numbered n l ++ [⟨i, n + l.length, d⟩]
  | n, [], i, d => rfl
  | n, (j, e) :: l, i, d => by
    rw [List.cons_append, numbered, numbered_snoc (n + 1) l, numbered, List.cons_append, List.length_cons,
      show n + 1 + l.length = n + (l.length + 1) by omega]

theorem numbered_length : ∀ (n : Nat) (l : List (Nat × Nat)), (numbered n l).length = l.length
  | _, [] => rfl
  | n, (_, _) :: l => by rw [numbered, List.length_cons, numbered_length, List.length_cons]

theorem numbered_idx : ∀ (n : Nat) (l : List (Nat × Nat)), (numbered n l).map (·.idx) = l.map (·.1)
  | _, [] => rfl
  | n, (_, _) :: l => by rw [numbered, List.map_cons, numbered_idx, List.map_cons]

theorem numbered_mem : ∀ {n : Nat} {l : List (Nat × Nat)} {r : Row}, r ∈ numbered n l → n ≤ r.num ∧ r.num < n + l.length ∧ (r.idx, r.disc) ∈ l
  | _, [], r, h => absurd h List.not_mem_nil
  | n, (i, d) :: l, r, h => by
    rw [numbered] at h
    rcases List.mem_cons.1 h with h | h
    · rw [h]; simp
    · obtain ⟨a, b, c⟩ := numbered_mem h
      rw [List.length_cons]
      exact ⟨by omega, by omega, List.mem_cons_of_mem _ c⟩

theorem rowsFrom_length : ∀ (d : Nat) (ps : List Per), (rowsFrom d ps).length = counts ps
  | _, [] => rfl
  | d, p :: ps => by rw [rowsFrom, List.length_append, List.length_map, List.length_range', rowsFrom_length, counts_cons]

theorem rowsFrom_mem : ∀ {d : Nat} {ps : List Per} {i e : Nat}, (i, e) ∈ rowsFrom d ps → (∃ p ∈ ps, p.key ≤ i ∧ i < p.key + p.count) ∧ d ≤ e ∧ e < d + ps.length
  | _, [], _, _, h => absurd h List.not_mem_nil
  | d, p :: ps, i, e, h => by
    rw [rowsFrom] at h
    rcases List.mem_append.1 h with h | h
    · obtain ⟨j, h1, h2⟩ := List.mem_map.1 h
      injection h2 with h2 h3
      subst h2 h3
      have h1 := List.mem_range'_1.1 h1
      exact ⟨⟨p, by simp, h1.1, h1.2⟩, Nat.le_refl _, by rw [List.length_cons]; omega⟩
    · obtain ⟨⟨p', h1, h2⟩, h3, h4⟩ := rowsFrom_mem h
      exact ⟨⟨p', List.mem_cons_of_mem _ h1, h2⟩, by omega, by rw [List.length_cons]; omega⟩

theorem rowsFrom_idx : ∀ (d : Nat) (ps : List Per), (rowsFrom d ps).map (·.1) = ids ps
  | _, [] => rfl
  | d, p :: ps => by
    rw [rowsFrom, List.map_append, List.map_map, rowsFrom_idx, ids_cons]
    congr 1
    exact List.map_id' _

theorem TlInv.rows_length {q : Segs} {t : Tl} (h : TlInv q t) : (rows t.periods t.man).length = t.man.segCount := by
  by_cases hpos : 0 < t.man.segCount
  · obtain ⟨A, p, R, ds, hB⟩ := h.man.begins hpos
    unfold rows
    rw [hB.shown h.pids, rowsFrom_length, counts_cons, hB.cs]
  · rw [rows_empty (by omega)]; simp; omega

theorem TlInv.rows_mem {mono : Bool} {q : Segs} (hq : Inv mono q.sl) {t : Tl} (h : TlInv q t) {i e : Nat} (hm : (i, e) ∈ rows t.periods t.man) :
    i < hi q ∧ e < t.man.firstIdx + t.man.perCount := by
  by_cases hpos : 0 < t.man.segCount
  · obtain ⟨A, p, R, ds, hB⟩ := h.man.begins hpos
    unfold rows at hm
    rw [hB.shown h.pids] at hm
    obtain ⟨⟨r, h1, h2, h3⟩, h4, h5⟩ := rowsFrom_mem hm
    have hg : Good q r := by
      rcases List.mem_cons.1 h1 with e | e
      · rw [e]; exact ⟨ds, hB.hf⟩
      · exact h.good r (by rw [hB.hp]; simp [e])
    have := hg.le_hi hq
    rw [List.length_cons] at h5
    have := hB.cp
    omega
  · rw [rows_empty (by omega)] at hm; exact absurd hm List.not_mem_nil

/-- No number of the manifest wraps. -/
structure Bnd (a b : Nat) (t : Tl) : Prop where
  per : t.man.firstIdx + t.man.perCount ≤ a
  seq : t.man.segCount ≤ t.man.sequence
  le : t.man.sequence ≤ b

theorem playlist_mem {mono : Bool} {q : Segs} (hq : Inv mono q.sl) {t : Tl} (h : TlInv q t) {a b : Nat} (hb : Bnd a b t) {r : Row}
    (hr : r ∈ playlist t) : r.idx < hi q ∧ r.num < t.man.sequence ∧ r.disc < t.man.firstIdx + t.man.perCount := by
  obtain ⟨h1, h2, h3⟩ := numbered_mem hr
  rw [h.rows_length] at h2
  have := hb.seq
  obtain ⟨h4, h5⟩ := h.rows_mem hq h3
  exact ⟨h4, by omega, h5⟩

/-- The playlist of `t'` is that of `t`, without segments at its beginning, and with segments at its end that are above all
that was there. -/
structure Ext (N : Nat) (t t' : Tl) : Prop where
  id : t'.id = t.id
  list : ∃ k new, playlist t' = (playlist t).drop k ++ new ∧
    ∀ r ∈ new, N ≤ r.idx ∧ t.man.sequence ≤ r.num ∧ t.man.firstIdx + t.man.perCount ≤ r.disc + 1
  ids : ∃ k new, ids t'.periods = (ids t.periods).drop k ++ new ∧ ∀ i ∈ new, N ≤ i
  seq : t.man.sequence ≤ t'.man.sequence
  per : t.man.firstIdx + t.man.perCount ≤ t'.man.firstIdx + t'.man.perCount

theorem Ext.refl (N : Nat) (t : Tl) : Ext N t t :=
  ⟨rfl, ⟨0, [], by simp, by simp⟩, ⟨0, [], by simp, by simp⟩, Nat.le_refl _, Nat.le_refl _⟩

theorem Ext.trans {N M : Nat} {a b c : Tl} (h : Ext N a b) (k : Ext M b c) (hNM : N ≤ M) : Ext N a c := by
  obtain ⟨h1, ⟨i, n, h2, h3⟩, ⟨j, m, h4, h5⟩, h6, h7⟩ := h
  obtain ⟨k1, ⟨i', n', k2, k3⟩, ⟨j', m', k4, k5⟩, k6, k7⟩ := k
  refine ⟨k1.trans h1, ⟨i + i', (n.drop (i' - ((playlist a).drop i).length)) ++ n', ?_, fun r hr => ?_⟩,
    ⟨j + j', (m.drop (j' - ((Timeline.ids a.periods).drop j).length)) ++ m', ?_, fun r hr => ?_⟩, by omega, by omega⟩
  · rw [k2, h2, List.drop_append, List.drop_drop, List.append_assoc]
  · rcases List.mem_append.1 hr with hr | hr
    · exact h3 r (List.mem_of_mem_drop hr)
    · obtain ⟨a1, a2, a3⟩ := k3 r hr
      exact ⟨by omega, by omega, by omega⟩
  · rw [k4, h4, List.drop_append, List.drop_drop, List.append_assoc]
  · rcases List.mem_append.1 hr with hr | hr
    · exact h5 r (List.mem_of_mem_drop hr)
    · have := k5 r hr; omega

theorem Cut.ext {t t' : Tl} (h : Cut t t') {a b : Nat} (hb : Bnd a b t) (N : Nat) : Ext N t t' ∧ Bnd a b t' := by
  obtain ⟨k, k1, k2⟩ := h.rows
  obtain ⟨j, j1⟩ := h.ids
  have hs := h.kept.sequence
  have hp := h.per
  have h1 := hb.seq
  refine ⟨⟨h.id, ⟨k, [], ?_, by simp⟩, ⟨j, [], by rw [j1]; simp, by simp⟩, by omega, by omega⟩, by rw [hp]; exact hb.per, by omega, by rw [hs]; exact hb.le⟩
  unfold playlist
  rw [k2, List.append_nil, ← numbered_drop, hs]
  congr 1
  omega

theorem Redur.ext {t t' : Tl} {dur : Nat} (h : Redur dur t t') {a b : Nat} (hb : Bnd a b t) (N : Nat) : Ext N t t' ∧ Bnd a b t' := by
  have hs := h.seq
  have hp := h.perCount
  have hf := h.firstIdx
  have hc := h.count
  have h1 := hb.seq
  refine ⟨⟨h.id, ⟨0, [], ?_, by simp⟩, ⟨0, [], by rw [h.ids]; simp, by simp⟩, by omega, by omega⟩, by have := hb.per; omega, by omega, by have := hb.le; omega⟩
  unfold playlist
  rw [h.rows, hs, hc]
  simp

/-- The row of a segment that is added: the next media sequence number; the discontinuity number is the next one when the
segment begins a period, and else that of the last period. -/
def newRow (t : Tl) (time : Int) (idx : Nat) (force : Bool) : Row :=
  ⟨idx, t.man.sequence, t.man.firstIdx + t.man.perCount - if freshOf t time idx force then 0 else 1⟩

/-- What adding a segment does to a timeline that gets it. -/
theorem addTl_spec {mono : Bool} {q : Segs} {sl : SL} {idx dur : Nat} {time : Int} (h : Inv mono q.sl)
    (ha : SegmentList.AddOk mono (segs q.sl) idx time dur) (hidx : idx < invalidIdx) (he : SegmentList.add q.sl true idx time dur = .ok sl) {t : Tl} (ht : TlInv q t)
    {b : Nat} (hb : Bnd (hi q) b t) (hbi : b ≤ idx) (now : Int) (force : Bool) (min : Nat) :
    ∃ t' min' ex, addTl { q with sl } now time idx dur force t min = .ok (t', min', ex) ∧ TlInv { q with sl } t' ∧
      MinOk t' min min' ∧ Ext (hi q) t t' ∧ Bnd (idx + 1) (idx + 1) t' ∧
      ex = decide (0 < t'.man.segCount) ∧
      (∃ k, Timeline.ids t'.periods = (Timeline.ids t.periods ++ [idx]).drop k) ∧
      ∃ k, playlist t' = (playlist t ++ [newRow t time idx force]).drop k := by
  obtain ⟨hi1, hs1⟩ := SegmentList.add_spec h ha he
  have hhi : hi q ≤ idx := by
    unfold hi
    cases e : (segs q.sl).getLast? with
    | none => exact Nat.zero_le _
    | some g => have := (ha.1 g e).1; dsimp only; omega
  unfold invalidIdx at hidx
  obtain ⟨t1, t2, g1, g2, g3, g4⟩ := grow_spec h ha he ht now force
    (fun t1 => time + dur + lastCorr t1)
  have b1 := hb.per
  have b2 := hb.seq
  have b3 := hb.le
  have p1 := g4.firstIdx
  have p2 := g4.perCount
  have p3 := g4.count
  have p4 := g4.seq
  have hper : t2.man.firstIdx + t2.man.perCount ≤ idx + 1 := by split at p2 <;> omega
  obtain ⟨t3, min', r1, r2, r3, r4⟩ := removeSegs_spec (now := now) (bc := 0) (bd := 0) (min := min) hi1 g3 (by omega)
  obtain ⟨k, k1, k2⟩ := r3.rows
  obtain ⟨j, j1⟩ := r3.ids
  have s1 := r3.kept.sequence
  have s2 := r3.per
  unfold addTl
  rw [g1]
  simp only [Res.bind_ok]
  have hids : Timeline.ids t3.periods = (Timeline.ids t.periods ++ [idx]).drop j := by rw [j1, g4.ids]
  have hidsE : ∃ k new, Timeline.ids t3.periods = (Timeline.ids t.periods).drop k ++ new ∧ ∀ i ∈ new, hi q ≤ i := by
    rw [hids, List.drop_append]
    exact ⟨j, _, rfl, fun i hi' => by rw [List.mem_singleton.1 (List.mem_of_mem_drop hi')]; exact hhi⟩
  have hlen := g3.rows_length
  have hrl := ht.rows_length
  have hdisc : t2.man.firstIdx + t2.man.perCount - 1 = t.man.firstIdx + t.man.perCount - if freshOf t time idx force then 0 else 1 := by
    have := g4.pos
    split at p2 <;> rename_i hf <;> simp [hf] <;> omega
  generalize hX : newRow t time idx force = X
  unfold newRow at hX
  have hpl2 : numbered (t.man.sequence - t.man.segCount) (rows t2.periods t2.man) = playlist t ++ [X] := by
    rw [g4.rows, numbered_snoc, hrl, hdisc, ← hX]
    unfold playlist
    congr 3
    omega
  rw [g2]
  simp only [Res.bind_ok]
  rw [r1]
  simp only [Res.bind_ok]
  by_cases hz : t3.man.segCount ≤ 0
  · rw [if_pos hz]
    have hp3 : playlist t3 = [] := by unfold playlist; rw [rows_empty (by omega)]; rfl
    refine ⟨t3, min', false, rfl, r2, r4, ⟨r3.id.trans g4.id, ⟨(playlist t).length, [], by rw [hp3]; simp, by simp⟩, hidsE, by omega, ?_⟩, ⟨by omega, by omega, by omega⟩, ?_, ⟨j, hids⟩,
      (playlist t ++ [X]).length, by rw [hp3, List.drop_length]⟩
    · rw [s2]; split at p2 <;> omega
    · simp; omega
  · rw [if_neg hz]
    generalize hM : (if dur > 0 then manPostAdd t3.man dur else t3.man) = M
    have e1 : M.first = t3.man.first := by rw [← hM]; split <;> rfl
    have e2 : M.next = t3.man.next := by rw [← hM]; split <;> rfl
    have e3 : M.segCount = t3.man.segCount := by rw [← hM]; split <;> rfl
    have e4 : M.perCount = t3.man.perCount := by rw [← hM]; split <;> rfl
    have e5 : M.dur = t3.man.dur := by rw [← hM]; split <;> rfl
    have e6 : M.firstIdx = t3.man.firstIdx := by rw [← hM]; split <;> rfl
    have e7 : M.sequence = t3.man.sequence := by rw [← hM]; split <;> rfl
    have e8 : SegmentList.add32 M.sequence 1 = M.sequence + 1 := SegmentList.add32_ok (by omega)
    rw [e8]
    have hrows : rows t3.periods { M with sequence := M.sequence + 1 } = rows t3.periods t3.man := by
      unfold rows Timeline.shown
      dsimp only
      rw [e1, e2, e3, e6]
    have hpl : playlist { t3 with man := { M with sequence := M.sequence + 1 }, lastCreated := now } = (playlist t ++ [X]).drop k := by
      rw [← hpl2, ← numbered_drop, ← k2]
      show numbered (M.sequence + 1 - M.segCount) (rows t3.periods { M with sequence := M.sequence + 1 }) = _
      rw [hrows, e7, e3]
      congr 1
      omega
    have hkl : k ≤ (playlist t).length := by
      unfold playlist
      rw [numbered_length, hrl]
      omega
    refine ⟨_, min', true, rfl, ⟨r2.good, r2.sorted, r2.pids, r2.nid, r2.cs, r2.cd, r2.cp, r2.man.congr e1 e2 e3 e4 e5⟩, ⟨r4.le, r4.low, r4.tight⟩,
      ⟨r3.id.trans g4.id, ⟨k, [X], by rw [hpl, List.drop_append_of_le_length hkl], fun r hr => ?_⟩, hidsE, ?_, ?_⟩,
      ⟨?_, ?_, ?_⟩, ?_, ⟨j, hids⟩, ⟨k, hpl⟩⟩
    · rw [List.mem_singleton.1 hr, ← hX]
      refine ⟨hhi, Nat.le_refl _, ?_⟩
      dsimp only
      rw [← hdisc]
      have := g4.pos
      split at p2 <;> omega
    · show t.man.sequence ≤ M.sequence + 1; omega
    · show _ ≤ M.firstIdx + M.perCount
      rw [e6, e4, s2]; split at p2 <;> omega
    · show M.firstIdx + M.perCount ≤ _; omega
    · show M.segCount ≤ M.sequence + 1; omega
    · show M.sequence + 1 ≤ _; omega
    · show true = decide (0 < M.segCount)
      simp; omega

end Verif.Timeline
