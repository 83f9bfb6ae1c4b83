import Verif.TimelineServe

/-!
# Timelines: what holds of playlists at all times
-/

namespace Verif.Timeline

open Verif.SegmentList (SL Iter Seg Inv seq segs ahead AddOk sub32 add32)

/-! ## Later states -/

/-- A state that is reached from another one. -/
inductive Later (mono : Bool) (s : Ch) (H : List Seg) : Ch → List Seg → Prop
  | refl : Later mono s H s H
  | step {s' s'' : Ch} {H' : List Seg} {op : Op} : Later mono s H s' H' → Guard mono s' H' op → step s' op = .ok s'' →
      Later mono s H s'' (log H' op)

theorem Later.reach {mono : Bool} {s s' : Ch} {H H' : List Seg} (h : Later mono s H s' H') (hr : Reach mono s H) : Reach mono s' H' := by
  induction h with
  | refl => exact hr
  | step _ hg he ih => exact .step ih hg he

theorem Later.link {mono : Bool} {s s' : Ch} {H H' : List Seg} (h : Later mono s H s' H') (hr : Reach mono s H) : Link s s' := by
  induction h with
  | refl => exact .refl _
  | step hl hg he ih =>
    rcases step_spec (reach_inv (hl.reach hr)) hg with ⟨x, e, _, k⟩ | e
    · rw [he] at e; injection e with e; rw [e]; exact ih.trans k
    · rw [he] at e; exact nomatch e

theorem unique_id {ts : List Tl} (h : ts.Pairwise (fun t u => t.id < u.id)) {t u : Tl} (ht : t ∈ ts) (hu : u ∈ ts) (e : t.id = u.id) : t = u := by
  induction ts with
  | nil => exact absurd ht List.not_mem_nil
  | cons a ts ih =>
    obtain ⟨h1, h2⟩ := List.pairwise_cons.1 h
    rcases List.mem_cons.1 ht with e1 | ht <;> rcases List.mem_cons.1 hu with e2 | hu
    · rw [e1, e2]
    · have := h1 u hu; rw [← e1] at this; omega
    · have := h1 t ht; rw [← e2] at this; omega
    · exact ih h2 ht hu

theorem later_ext {mono : Bool} {s s' : Ch} {H H' : List Seg} (hr : Reach mono s H) (h : Later mono s H s' H') {t t' : Tl} (ht : t ∈ s.tls)
    (ht' : t' ∈ s'.tls) (e : t'.id = t.id) : Ext (hi s.segs) t t' := by
  have hi := reach_inv hr
  rcases (h.link hr).tls t' ht' with ⟨u, hu, k⟩ | hn
  · have : u = t := unique_id hi.idlt hu ht (by rw [← k.id, e])
    rw [← this]; exact k
  · have := hi.idle t ht; have := hn.1; omega

/-! ## Rows of one playlist -/

theorem rowsFrom_discs : ∀ (d : Nat) (ps : List Per), (rowsFrom d ps).Pairwise (fun a b => a.2 ≤ b.2)
  | _, [] => .nil
  | d, p :: ps => by
    rw [rowsFrom]
    refine List.pairwise_append.2 ⟨?_, rowsFrom_discs (d + 1) ps, ?_⟩
    · rw [List.pairwise_map]
      exact List.pairwise_of_forall (fun _ _ => Nat.le_refl _)
    · intro a ha b hb
      obtain ⟨i, _, e⟩ := List.mem_map.1 ha
      have := (rowsFrom_mem (i := b.1) (e := b.2) hb).2.1
      rw [← e]
      show d ≤ b.2
      omega

theorem numbered_pairwise {R : Nat × Nat → Nat × Nat → Prop} : ∀ {n : Nat} {l : List (Nat × Nat)}, l.Pairwise R →
    (numbered n l).Pairwise (fun a b => R (a.idx, a.disc) (b.idx, b.disc) ∧ a.num < b.num)
  | _, [], _ => .nil
  | n, (i, d) :: l, h => by
    obtain ⟨h1, h2⟩ := List.pairwise_cons.1 h
    rw [numbered]
    refine List.pairwise_cons.2 ⟨fun r hr => ?_, numbered_pairwise h2⟩
    obtain ⟨m1, _, m3⟩ := numbered_mem hr
    exact ⟨h1 _ m3, by show n < r.num; omega⟩

theorem playlist_pairwise {q : Segs} {t : Tl} (h : TlInv q t) :
    (playlist t).Pairwise (fun a b => a.idx < b.idx ∧ a.num < b.num ∧ a.disc ≤ b.disc) := by
  obtain ⟨_, g2⟩ := shown_good h
  have h1 := numbered_pairwise (n := t.man.sequence - t.man.segCount) (rowsFrom_sorted t.man.firstIdx _ g2)
  have h2 := numbered_pairwise (n := t.man.sequence - t.man.segCount) (rowsFrom_discs t.man.firstIdx (shown t.periods t.man))
  exact (h1.and h2).imp (fun ⟨⟨a, b⟩, c, _⟩ => ⟨a, b, c⟩)

/-- Two rows of a list that is in order. -/
theorem pair_cases {α : Type} {R : α → α → Prop} : ∀ {l : List α}, l.Pairwise R → ∀ {a b : α}, a ∈ l → b ∈ l → a = b ∨ R a b ∨ R b a
  | [], _, _, _, h, _ => absurd h List.not_mem_nil
  | x :: l, hp, a, b, ha, hb => by
    obtain ⟨h1, h2⟩ := List.pairwise_cons.1 hp
    rcases List.mem_cons.1 ha with e1 | ha <;> rcases List.mem_cons.1 hb with e2 | hb
    · exact .inl (e1.trans e2.symm)
    · rw [e1]; exact .inr (.inl (h1 b hb))
    · rw [e2]; exact .inr (.inr (h1 a ha))
    · exact pair_cases h2 ha hb

/-! ## C42 -/

/-- Two rows agree: the same segment has the same numbers, a media sequence number is of one segment only, and later segments have
later discontinuity sequence numbers. -/
def Agree (r r' : Row) : Prop :=
  (r.idx = r'.idx ↔ r.num = r'.num) ∧ (r.idx = r'.idx → r.disc = r'.disc) ∧ (r.idx ≤ r'.idx → r.num ≤ r'.num ∧ r.disc ≤ r'.disc)

theorem rows_agree {mono : Bool} {s s' : Ch} {H H' : List Seg} (hr : Reach mono s H) (h : Later mono s H s' H') {t t' : Tl} (ht : t ∈ s.tls)
    (ht' : t' ∈ s'.tls) (e : t'.id = t.id) {r r' : Row} (h1 : r ∈ playlist t) (h2 : r' ∈ playlist t') : Agree r r' := by
  obtain ⟨_, ⟨k, new, e1, e2⟩, _, _, _⟩ := later_ext hr h ht ht' e
  obtain ⟨i1, i2, _⟩ := (reach_inv hr).tls t ht
  obtain ⟨b1, b2, b3⟩ := playlist_mem (reach_inv hr).inv i1 i2 h1
  rw [e1] at h2
  unfold Agree
  rcases List.mem_append.1 h2 with h2 | h2
  · rcases pair_cases (playlist_pairwise i1) h1 (List.mem_of_mem_drop h2) with e | e | e
    · rw [e]; exact ⟨⟨fun _ => rfl, fun _ => rfl⟩, fun _ => rfl, fun _ => ⟨Nat.le_refl _, Nat.le_refl _⟩⟩
    · refine ⟨⟨?_, ?_⟩, ?_, ?_⟩ <;> intros <;> omega
    · refine ⟨⟨?_, ?_⟩, ?_, ?_⟩ <;> intros <;> omega
  · obtain ⟨n1, n2, n3⟩ := e2 r' h2
    refine ⟨⟨?_, ?_⟩, ?_, ?_⟩ <;> intros <;> omega

/-- **C42.** Two responses for a timeline, at any two times, for any tracks: the rows agree, the numbers are consecutive, and the
first media and discontinuity sequence numbers do not go back. -/
theorem numbers_stable {mono : Bool} {s s' : Ch} {H H' : List Seg} (hr : Reach mono s H) (h : Later mono s H s' H') {t t' : Tl} (ht : t ∈ s.tls)
    (ht' : t' ∈ s'.tls) (e : t'.id = t.id) (hc : 0 < t.man.segCount) (hc' : 0 < t'.man.segCount) {sd sd' : Nat} {trk trk' : Option Trk}
    {max max' : Nat} {hd hd' : Hdr} {ps ps' : List SPer} (h1 : serve s t sd trk max = .ok (hd, ps)) (h2 : serve s' t' sd' trk' max' = .ok (hd', ps')) :
    (∀ r ∈ clientRows hd ps, ∀ r' ∈ clientRows hd' ps', Agree r r') ∧ hd.seq ≤ hd'.seq ∧ hd.firstIdx ≤ hd'.firstIdx := by
  obtain ⟨a, b, c1, c2, _, c3, c4, _⟩ := serve_spec (reach_inv hr) ht hc sd trk max
  rw [h1] at c1
  injection c1 with c1
  injection c1 with ea eb
  subst ea eb
  have hr' := h.reach hr
  obtain ⟨a', b', d1, d2, _, d3, d4, _⟩ := serve_spec (reach_inv hr') ht' hc' sd' trk' max'
  rw [h2] at d1
  injection d1 with d1
  injection d1 with ea eb
  subst ea eb
  refine ⟨fun r m1 r' m2 => ?_, ?_⟩
  · rw [c2] at m1
    rw [d2] at m2
    exact rows_agree hr h ht ht' e (List.mem_filter.1 m1).1 (List.mem_filter.1 m2).1
  · rw [c3, d3, c4, d4]
    obtain ⟨i1, i2, _⟩ := (reach_inv hr).tls t ht
    obtain ⟨j1, j2, _⟩ := (reach_inv hr').tls t' ht'
    obtain ⟨_, ⟨k, new, e1, e2⟩, _, e4, _⟩ := later_ext hr h ht ht' e
    -- the first row of the later playlist
    obtain ⟨A, p, R, ds, hb⟩ := j1.man.begins hc'
    have hsh := hb.shown j1.pids
    have hpos := Good.pos ⟨ds, hb.hf⟩
    have hrow : ∃ i rest, playlist t' = ⟨i, t'.man.sequence - t'.man.segCount, t'.man.firstIdx⟩ :: rest := by
      unfold playlist rows
      rw [hsh, rowsFrom, show t'.man.first.count = (t'.man.first.count - 1) + 1 by omega, List.range'_succ]
      exact ⟨_, _, rfl⟩
    obtain ⟨i, rest, er⟩ := hrow
    have hm : (⟨i, t'.man.sequence - t'.man.segCount, t'.man.firstIdx⟩ : Row) ∈ playlist t' := by rw [er]; simp
    rw [e1] at hm
    have hpc : 1 ≤ t.man.perCount := by
      obtain ⟨A, p, R, ds, hb⟩ := i1.man.begins hc
      have := hb.cp; omega
    rcases List.mem_append.1 hm with hm | hm
    · have hm := List.mem_of_mem_drop hm
      obtain ⟨m1, _, m3⟩ := numbered_mem hm
      have := (rowsFrom_mem m3).2.1
      exact ⟨m1, this⟩
    · obtain ⟨_, n2, n3⟩ := e2 _ hm
      dsimp only at n2 n3
      exact ⟨by omega, by omega⟩

/-! ## C43 -/

/-- The rows of a response are numbered one after the other, from the sequence of the header. -/
theorem rows_consecutive (hd : Hdr) (ps : List SPer) : ∀ i r, (clientRows hd ps)[i]? = some r → r.num = hd.seq + i := by
  unfold clientRows
  generalize srows hd.firstIdx ps = l
  generalize hd.seq = n
  intro i
  induction l generalizing n i with
  | nil => intro r h; simp [numbered] at h
  | cons x l ih =>
    obtain ⟨a, b⟩ := x
    intro r h
    rw [numbered] at h
    cases i with
    | zero => simp at h; rw [← h]; rfl
    | succ i =>
      rw [List.getElem?_cons_succ] at h
      rw [ih (n + 1) i r h]; omega

/-- **C43.** A response for a timeline whose manifest is not empty is defined. It holds, in order, the segments of the playlist up to
the last one that may be shown, with their numbers; every one has the time and duration it was added with, except that the duration
of the last one is zero when it is pending on the track. -/
theorem response_exact {mono : Bool} {s : Ch} {H : List Seg} (hr : Reach mono s H) {t : Tl} (ht : t ∈ s.tls) (hc : 0 < t.man.segCount)
    (sd : Nat) (trk : Option Trk) (max : Nat) :
    ∃ hd ps, serve s t sd trk max = .ok (hd, ps) ∧ clientRows hd ps = (playlist t).filter (fun r => r.idx ≤ max) ∧ hd.perCount = ps.length ∧
      (∀ p ∈ ps, p.segs ≠ []) ∧
      ∀ p ∈ ps, ∀ g ∈ p.segs, ∃ k ∈ H, k.idx = g.idx ∧ k.time = g.time ∧ (g.dur = k.dur ∨ g.dur = 0 ∧ g.idx = max ∧ pendingOn s.next trk max = true) := by
  obtain ⟨hd, ps, h1, h2, h3, _, _, h4, h5, _⟩ := serve_spec (reach_inv hr) ht hc sd trk max
  refine ⟨hd, ps, h1, h2, h3, h4, fun p hp g hg => ?_⟩
  obtain ⟨k, hk, e⟩ := h5 p hp g hg
  refine ⟨k, hk, ?_⟩
  unfold mask at e
  split at e
  · rename_i hm
    rw [e]
    exact ⟨rfl, rfl, .inr ⟨rfl, hm.1, hm.2⟩⟩
  · rw [e]; exact ⟨rfl, rfl, .inl rfl⟩

/-! ## C44 -/

/-- For every timeline (by its id), the segments that were added while the timeline was active and the middle of the segment was in
its range. -/
def admit (s : Ch) (A : Nat → List Nat) : Op → Nat → List Nat
  | .add _ time idx dur _ => fun id =>
    if s.tls.any (fun t => t.id = id && t.conf.active && decide (t.conf.start ≤ time + (dur / 2 : Nat)) && decide (time + (dur / 2 : Nat) < t.conf.fin))
    then A id ++ [idx] else A id
  | _ => A

/-- As `Reach`, with the segments that each timeline admitted. -/
inductive Run (mono : Bool) : Ch → List Seg → (Nat → List Nat) → Prop
  | init (next scale : Nat) (h : next < 2 ^ 32) : Run mono (init next scale) [] (fun _ => [])
  | step {s s' : Ch} {H : List Seg} {A : Nat → List Nat} {op : Op} : Run mono s H A → Guard mono s H op → step s op = .ok s' →
      Run mono s' (log H op) (admit s A op)

theorem Run.reach {mono : Bool} {s : Ch} {H : List Seg} {A : Nat → List Nat} (h : Run mono s H A) : Reach mono s H := by
  induction h with
  | init next scale h => exact .init next scale h
  | step _ hg he ih => exact .step ih hg he

/-- Every run of operations has its lists of admitted segments. -/
theorem Reach.run {mono : Bool} {s : Ch} {H : List Seg} (h : Reach mono s H) : ∃ A, Run mono s H A := by
  induction h with
  | init next scale h => exact ⟨_, .init next scale h⟩
  | step _ hg he ih => obtain ⟨A, ih⟩ := ih; exact ⟨_, .step ih hg he⟩

theorem hi_log {mono : Bool} {s : Ch} {H : List Seg} (h : ChInv mono s H) : hi s.segs = match H.getLast? with
    | none => 0
    | some g => g.idx + 1 := by
  rw [h.lastEq]; rfl

theorem log_hi {H : List Seg} {op : Op} (h : ∀ now time idx dur force, op ≠ .add now time idx dur force) :
    (log H op).getLast?.map (·.idx) = H.getLast?.map (·.idx) := by
  cases op with
  | add now time idx dur force => exact absurd rfl (h now time idx dur force)
  | updateLast dur =>
    unfold log
    dsimp only
    rcases SegmentList.snoc_cases H with e | ⟨B, g, e⟩
    · subst e; rfl
    · subst e; simp [SegmentList.setLast_concat]
  | _ => rfl

/-- The segments of a timeline are the last ones it admitted; ids that were not given to a timeline yet admitted none. -/
theorem run_held {mono : Bool} {s : Ch} {H : List Seg} {A : Nat → List Nat} (h : Run mono s H A) :
    (∀ t ∈ s.tls, ∃ k, ids t.periods = (A t.id).drop k) ∧ ∀ i, s.lastId < i → A i = [] := by
  induction h with
  | init next scale h => exact ⟨fun t ht => absurd ht List.not_mem_nil, fun _ _ => rfl⟩
  | @step s s' H A op hrun hg he ih =>
    obtain ⟨ih1, ih2⟩ := ih
    have hI := reach_inv hrun.reach
    by_cases hop : ∃ now time idx dur force, op = .add now time idx dur force
    · obtain ⟨now, time, idx, dur, force, rfl⟩ := hop
      obtain ⟨g1, g2, g3⟩ := hg
      rcases addSeg_spec (now := now) (force := force) hI g1 g2 g3 with ⟨x, ex, k1, ⟨k2, k3⟩, q, k4⟩ | ⟨_, k⟩
      · have hx : x = s' := by
          unfold step at he; dsimp only at he; rw [k1] at he; injection he
        subst hx
        refine ⟨fun t' ht' => ?_, fun i hi => ?_⟩
        · obtain ⟨t, ht, hadd⟩ := k4.right t' ht'
          obtain ⟨k, ek⟩ := ih1 t ht
          have hid := hadd.ext.id
          by_cases ha : Admits t (time + (dur / 2 : Nat))
          · obtain ⟨⟨j, ej⟩, _⟩ := hadd.adm ha
            have : admit s A (.add now time idx dur force) t'.id = A t.id ++ [idx] := by
              unfold admit
              dsimp only
              rw [hid, if_pos]
              refine List.any_eq_true.2 ⟨t, ht, ?_⟩
              obtain ⟨a1, a2, a3⟩ := ha
              simp only [a1, a2, a3, decide_true, Bool.and_self]
            rw [this, ej, ek]
            generalize A t.id = B
            by_cases hk : k ≤ B.length
            · rw [← List.drop_append_of_le_length hk, List.drop_drop]
              exact ⟨_, rfl⟩
            · have e0 : B.drop k = [] := List.drop_eq_nil_of_le (by omega)
              rw [e0, List.nil_append]
              refine ⟨B.length + j, ?_⟩
              rw [← List.drop_drop, List.drop_left]
          · obtain ⟨⟨j, ej⟩, _⟩ := hadd.not ha
            have : admit s A (.add now time idx dur force) t'.id = A t.id := by
              unfold admit
              dsimp only
              rw [hid, if_neg]
              intro hc
              obtain ⟨u, hu, hc⟩ := List.any_eq_true.1 hc
              simp only [Bool.and_eq_true, decide_eq_true_eq] at hc
              obtain ⟨⟨⟨e1, e2⟩, e3⟩, e4⟩ := hc
              rw [unique_id hI.idlt hu ht e1] at e2 e3 e4
              exact ha ⟨e2, e3, e4⟩
            rw [this, ej, ek, List.drop_drop]
            exact ⟨_, rfl⟩
        · have hl := k3.last
          have : admit s A (.add now time idx dur force) i = A i := by
            unfold admit
            dsimp only
            rw [if_neg]
            intro hc
            obtain ⟨u, hu, hc⟩ := List.any_eq_true.1 hc
            simp only [Bool.and_eq_true, decide_eq_true_eq] at hc
            have := hI.idle u hu
            have := hc.1.1.1
            omega
          rw [this]
          exact ih2 i (by omega)
      · unfold step at he; dsimp only at he; rw [k] at he; exact nomatch he
    · have hne : ∀ now time idx dur force, op ≠ .add now time idx dur force := fun a b c d e h => hop ⟨a, b, c, d, e, h⟩
      have hadm : admit s A op = A := by
        cases op with
        | add now time idx dur force => exact absurd rfl (hne now time idx dur force)
        | _ => rfl
      rw [hadm]
      rcases step_spec hI hg with ⟨x, e, hI', hL⟩ | e
      · rw [he] at e; injection e with e; subst e
        have hl := hL.last
        refine ⟨fun t' ht' => ?_, fun i hi => ih2 i (by omega)⟩
        have hhi : hi s'.segs = hi s.segs := by
          rw [hi_log hI, hi_log hI']
          have := log_hi (H := H) hne
          cases e1 : (log H op).getLast? <;> cases e2 : H.getLast? <;> rw [e1, e2] at this <;> simp at this ⊢
          exact this
        have hup : ∀ i ∈ ids t'.periods, i < hi s.segs := by
          intro i hi
          obtain ⟨p, hp, _, h2⟩ := mem_ids.1 hi
          have := ((hI'.tls t' ht').1.good p hp).le_hi hI'.inv
          rw [hhi] at this
          omega
        rcases hL.tls t' ht' with ⟨t, ht, hx⟩ | hn
        · obtain ⟨k, ek⟩ := ih1 t ht
          obtain ⟨j, new, ej, hnew⟩ := hx.ids
          have : new = [] := by
            cases new with
            | nil => rfl
            | cons a l =>
              have := hnew a (by simp)
              have := hup a (by rw [ej]; simp)
              omega
          rw [ej, this, ek, List.append_nil, List.drop_drop, hx.id]
          exact ⟨_, rfl⟩
        · rw [ih2 _ hn.1]
          refine ⟨0, ?_⟩
          cases e : ids t'.periods with
          | nil => rfl
          | cons a l =>
            have := hn.2 a (by rw [e]; simp)
            have := hup a (by rw [e]; simp)
            omega
      · rw [he] at e; exact nomatch e

end Verif.Timeline
