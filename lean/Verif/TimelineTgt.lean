import Verif.TimelineWin

/-!
# Timelines: the target duration
-/

namespace Verif.Timeline

open Verif.SegmentList (SL Iter Seg Inv seq segs ahead AddOk sub32 add32)

/-- The target duration and the number of segments it was taken from, when a segment is shown. -/
def tgt (c : MConf) (a : Nat × Nat) (dur : Nat) : Nat × Nat :=
  if c.tdSegs ≤ 0 ∨ c.tdSegs > a.2 then (if dur > a.1 then dur else a.1, a.2 + 1) else a

def Man.tgt (m : Man) : Nat × Nat := (m.target, m.targetSegs)

theorem manPostAdd_tgt (m : Man) (dur : Nat) : (manPostAdd m dur).tgt = Timeline.tgt m.conf m.tgt dur := by
  unfold manPostAdd Man.tgt Timeline.tgt
  dsimp only
  by_cases h : m.conf.tdSegs ≤ 0 ∨ m.conf.tdSegs > m.targetSegs
  · by_cases h2 : dur > m.target
    · rw [if_pos h, if_pos h, if_pos h2, if_pos ⟨h, h2⟩]
    · rw [if_pos h, if_pos h, if_neg h2, if_neg (fun h => h2 h.2)]
  · rw [if_neg h, if_neg h, if_neg (fun h' => h h'.1)]

theorem Kept.tgt {m m' : Man} (h : Kept m m') : m'.tgt = m.tgt := by unfold Man.tgt; rw [h.target, h.targetSegs]

theorem updMan_tgt {q : Segs} {dur : Nat} {m m' : Man} (h : updMan q dur m = .ok m') : m'.tgt = m.tgt ∧ m'.conf = m.conf := by
  unfold updMan at h
  split at h
  · obtain ⟨it, _, h⟩ := bind_eq_ok h
    injection h with h
    rw [← h]
    exact ⟨rfl, rfl⟩
  · injection h with h
    rw [← h]
    exact ⟨rfl, rfl⟩

theorem updTl_tgt {q : Segs} {lastIdx dur : Nat} {t t' : Tl} (h : updTl q lastIdx dur t = .ok t') :
    (t'.man.tgt = t.man.tgt ∧ (t.man.segCount = 0 ∨ ∀ p, t.periods.getLast? = some p → sub32 (p.key + p.count) 1 ≠ lastIdx)) ∨
    t'.man.tgt = tgt t.man.conf t.man.tgt dur := by
  unfold updTl at h
  cases hp : t.periods.getLast? with
  | none => rw [hp] at h; injection h with h; rw [← h]; exact .inl ⟨rfl, .inr (by simp)⟩
  | some p =>
    rw [hp] at h
    dsimp only at h
    by_cases hk : sub32 (p.key + p.count) 1 ≠ lastIdx
    · rw [if_pos hk] at h
      injection h with h; rw [← h]; exact .inl ⟨rfl, .inr (fun r hr => by injection hr with hr; rw [← hr]; exact hk)⟩
    · rw [if_neg hk] at h
      obtain ⟨it, _, h⟩ := bind_eq_ok h
      split at h
      · obtain ⟨m, h1, h⟩ := bind_eq_ok h
        injection h with h
        rw [← h]
        obtain ⟨e1, e2⟩ := updMan_tgt h1
        dsimp only at e1 e2 ⊢
        rw [manPostAdd_tgt, e1, e2]
        exact .inr rfl
      · rename_i hc
        injection h with h
        rw [← h]
        exact .inl ⟨rfl, .inl (by omega)⟩

/-! ## How the target duration changes -/

/-- The segments of the log that are listed in the playlist. -/
def Listed (H : List Seg) (t : Tl) (g : Seg) : Prop := g ∈ H ∧ g.idx ∈ (playlist t).map (·.idx)

theorem playlist_idx (t : Tl) : (playlist t).map (·.idx) = ids (shown t.periods t.man) := by
  unfold playlist; rw [numbered_idx, rows_fst]

/-- The playlist is the end of the timeline. -/
theorem shown_suffix {q : Segs} {t : Tl} (ht : TlInv q t) : ∃ k, ids (shown t.periods t.man) = (ids t.periods).drop k := by
  by_cases hc : 0 < t.man.segCount
  · obtain ⟨A, p, R, ds, hB⟩ := ht.man.begins hc
    rw [hB.shown ht.pids, hB.hp, ids_append, ids_cons, ids_cons]
    refine ⟨(ids A).length + (t.man.first.key - p.key), ?_⟩
    have h1 := hB.lo
    have h2 := hB.hi
    have h3 := Good.pos ⟨ds, hB.hf⟩
    rw [← List.drop_drop, List.drop_left, List.drop_append_of_le_length (by rw [List.length_range']; omega)]
    congr 1
    have : List.range' p.key p.count = List.range' p.key (t.man.first.key - p.key) ++ List.range' t.man.first.key t.man.first.count := by
      rw [show t.man.first.key = p.key + (t.man.first.key - p.key) by omega, Nat.add_sub_cancel_left, List.range'_append_1]
      congr 1
      omega
    rw [this, List.drop_left' (by rw [List.length_range'])]
  · unfold shown
    rw [if_pos (by omega)]
    exact ⟨(ids t.periods).length, by rw [List.drop_length]; rfl⟩

/-- What an operation does to the target duration of a timeline, and to the indexes of the playlist. -/
inductive TgtStep (s : Ch) : Op → Tl → Tl → Prop
  | cut {op : Op} {t t' : Tl} : (∀ dur, op ≠ .updateLast dur) → t'.man.tgt = t.man.tgt →
      (∀ i ∈ (playlist t').map (·.idx), i ∈ (playlist t).map (·.idx)) → TgtStep s op t t'
  | zero {now time : Int} {idx : Nat} {force : Bool} {t t' : Tl} : t'.man.tgt = t.man.tgt →
      (∀ i ∈ (playlist t').map (·.idx), i ∈ (playlist t).map (·.idx) ∨ i = idx) → TgtStep s (.add now time idx 0 force) t t'
  | add {now time : Int} {idx dur : Nat} {force : Bool} {t t' : Tl} : t'.man.tgt = tgt t.man.conf t.man.tgt dur →
      (∀ i ∈ (playlist t').map (·.idx), i ∈ (playlist t).map (·.idx) ∨ i = idx) → TgtStep s (.add now time idx dur force) t t'
  | old {dur : Nat} {t t' : Tl} : t'.man.tgt = t.man.tgt → (playlist t').map (·.idx) = (playlist t).map (·.idx) →
      s.lastIdx ∉ (playlist t).map (·.idx) → TgtStep s (.updateLast dur) t t'
  | last {dur : Nat} {t t' : Tl} : t'.man.tgt = tgt t.man.conf t.man.tgt dur → (playlist t').map (·.idx) = (playlist t).map (·.idx) →
      TgtStep s (.updateLast dur) t t'

theorem Cut.tgtStep {s : Ch} {op : Op} {t t' : Tl} (h : Cut t t') {a b : Nat} (hb : Bnd a b t) (ho : ∀ dur, op ≠ .updateLast dur) : TgtStep s op t t' := by
  refine .cut ho h.kept.tgt (fun i hi => ?_)
  obtain ⟨k, e⟩ := h.playlist hb
  rw [e, List.map_drop] at hi
  exact List.mem_of_mem_drop hi

/-- The segments of the manifest change only if the manifest is asked for, or by an update of its configuration. -/
theorem moved_tgt {mono : Bool} {s : Ch} {H : List Seg} (hr : Reach mono s H) {op : Op} (hg : Guard mono s H op) {t t' : Tl} (ht : t ∈ s.tls)
    (hm : Moved s op t t') :
    (t'.man.conf = t.man.conf ∨ ∃ id c m c' m', op = .update id c m ∧ validate c m = .ok (c', m') ∧ t'.man.conf = m') ∧ TgtStep s op t t' := by
  have hI := reach_inv hr
  obtain ⟨h1, h2⟩ := hI.tl t ht
  have htop := hI.top
  have hper : t.man.firstIdx + t.man.perCount < 2 ^ 32 := by have := h2.per; omega
  cases op with
  | update id c m =>
    rcases hm with e | ⟨c', m', a, hv, e⟩
    · subst e; exact ⟨.inl rfl, .cut (fun _ h => nomatch h) rfl (fun _ h => h)⟩
    · subst e; exact ⟨.inr ⟨id, c, m, c', m', rfl, hv, rfl⟩, .cut (fun _ h => nomatch h) rfl (fun _ h => h)⟩
  | get id now =>
    rcases hm with e | ⟨min', e⟩
    · subst e; exact ⟨.inl rfl, .cut (fun _ h => nomatch h) rfl (fun _ h => h)⟩
    · obtain ⟨t1, m1, r1, r2, r3, r4⟩ := inactiveRemove_spec (now := now) (scale := s.scale) (min := 0) hI.inv h1 hper
      rw [e] at r1; injection r1 with r1; injection r1 with r1; subst r1
      exact ⟨.inl r3.kept.conf, r3.tgtStep h2 (fun _ h => nomatch h)⟩
  | truncate now idx =>
    obtain ⟨t1, r1, r2, r3, r4⟩ := truncTl_spec (now := now) (idx := idx) hI.inv h1 hper
    rw [show truncTl s.segs now idx t = .ok t' from hm] at r1; injection r1 with r1; subst r1
    exact ⟨.inl r3.kept.conf, r3.tgtStep h2 (fun _ h => nomatch h)⟩
  | cleanup now =>
    rcases hm with e | ⟨min, min', e⟩
    · subst e; exact ⟨.inl rfl, .cut (fun _ h => nomatch h) rfl (fun _ h => h)⟩
    · obtain ⟨t1, m1, r1, r2, r3, r4⟩ := inactiveRemove_spec (now := now) (scale := s.scale) (min := min) hI.inv h1 hper
      rw [e] at r1; injection r1 with r1; injection r1 with r1; subst r1
      exact ⟨.inl r3.kept.conf, r3.tgtStep h2 (fun _ h => nomatch h)⟩
  | updateLast dur =>
    obtain ⟨sl, e, hu⟩ := hm
    obtain ⟨hd, hB⟩ := hg
    obtain ⟨A, g, eg⟩ : ∃ A g, segs s.segs.sl = A ++ [g] := by
      rcases update_ok (dur := dur) hI.inv (by rw [← hI.lastEq]; exact hB) with ⟨sl, _, hne⟩ | e'
      · rcases SegmentList.snoc_cases (segs s.segs.sl) with e | h
        · exact absurd e hne
        · exact h
      · rw [e] at e'; exact nomatch e'
    have hlast : H.getLast? = some g := by rw [hI.lastEq, eg]; simp
    have hidx := hI.last g hlast
    rw [hidx] at hu
    obtain ⟨t1, r1, r2, r3⟩ := updTl_spec hI.inv hd eg (hB g hlast) e h1
    rw [hu] at r1; injection r1 with r1; subst r1
    have hpl : (playlist t').map (·.idx) = (playlist t).map (·.idx) := by
      rw [playlist_idx, playlist_idx, ← rows_fst, ← rows_fst, r3.rows]
    refine ⟨.inl r3.mconf, ?_⟩
    rcases updTl_tgt hu with ⟨e1, e2⟩ | e1
    · refine .old e1 hpl ?_
      rw [hidx]
      intro hmem
      rw [playlist_idx] at hmem
      rcases e2 with e2 | e2
      · unfold shown at hmem
        rw [if_pos e2] at hmem
        exact absurd hmem List.not_mem_nil
      · obtain ⟨k, ek⟩ := shown_suffix h1
        rw [ek] at hmem
        obtain ⟨p, hp, l1, l2⟩ := mem_ids.1 (List.mem_of_mem_drop hmem)
        rcases SegmentList.snoc_cases t.periods with e3 | ⟨Q, P, e3⟩
        · rw [e3] at hp; exact absurd hp List.not_mem_nil
        · have hne := e2 P (by rw [e3]; simp)
          have hle := (h1.good P (by rw [e3]; simp)).le_hi hI.inv
          have hpos := (h1.good P (by rw [e3]; simp)).pos
          rw [hi_snoc eg] at hle
          have hs := h1.sorted
          rw [e3, List.pairwise_append] at hs
          rw [e3] at hp
          have hlt : g.idx < P.key + P.count := by
            rcases List.mem_append.1 hp with hp | hp
            · have := hs.2.2 p hp P (by simp); omega
            · rw [List.mem_singleton.1 hp] at l2; exact l2
          unfold sub32 at hne
          rw [if_pos (by omega)] at hne
          omega
    · exact .last e1 hpl
  | add now time idx dur force =>
    obtain ⟨sl, min, min', ex, e, ho⟩ := hm
    obtain ⟨g1, g2, g3⟩ := hg
    have ha' : AddOk mono (segs s.segs.sl) idx time dur := ⟨by rw [← hI.lastEq]; exact g1.1, g1.2⟩
    have hi1 := (SegmentList.add_spec hI.inv ha' e).1
    have hl : TlInv { s.segs with sl } t := h1.lift (fun s' _ => s'.add hI.inv ha' e)
    unfold addOne at ho
    split at ho
    · obtain ⟨⟨x, m⟩, hx, h'⟩ := bind_eq_ok ho
      injection h' with h'
      injection h' with h'
      subst h'
      obtain ⟨t1, m1, r1, r2, r3, r4⟩ := inactiveRemove_spec (now := now) (scale := s.scale) (min := min) (q := { s.segs with sl }) hi1 hl hper
      have r1 := hx.symm.trans r1
      injection r1 with r1; injection r1 with r1; subst r1
      exact ⟨.inl r3.kept.conf, r3.tgtStep h2 (fun _ h => nomatch h)⟩
    · split at ho
      · obtain ⟨⟨x, m⟩, hx, h'⟩ := bind_eq_ok ho
        injection h' with h'
        injection h' with h'
        subst h'
        have hl2 : TlInv { s.segs with sl } { t with conf := { t.conf with active := false } } :=
          ⟨hl.good, hl.sorted, hl.pids, hl.nid, hl.cs, hl.cd, hl.cp, hl.man⟩
        obtain ⟨t1, m1, r1, r2, r3, r4⟩ := inactiveRemove_spec (now := now) (scale := s.scale) (min := min) (q := { s.segs with sl }) hi1 hl2 hper
        have r1 := hx.symm.trans r1
        injection r1 with r1; injection r1 with r1; subst r1
        have hb2 : Bnd (hi s.segs) (max (hi s.segs) s.next) { t with conf := { t.conf with active := false } } := ⟨h2.per, h2.seq, h2.le⟩
        refine ⟨.inl r3.kept.conf, .cut (fun _ h => nomatch h) r3.kept.tgt (fun i hi => ?_)⟩
        obtain ⟨k, ek⟩ := r3.playlist hb2
        rw [ek, List.map_drop] at hi
        exact List.mem_of_mem_drop hi
      · obtain ⟨t2, t3, p1, p2, p3, p4, p5, p6, p7, p8, p9, p10, p11, p12, p13, _⟩ := addTl_parts hI.inv ha' g3 e h1 h2 now force min ho
        refine ⟨.inl (by rw [p10, p6.kept.conf, p2.mconf]), ?_⟩
        have hsub : ∀ i ∈ (playlist t').map (·.idx), i ∈ (playlist t).map (·.idx) ∨ i = idx := by
          intro i hi
          rw [playlist_idx, ← rows_fst, p8] at hi
          obtain ⟨k, _, ek⟩ := p6.rows
          rw [ek, List.map_drop] at hi
          have hi := List.mem_of_mem_drop hi
          rw [p2.rows, List.map_append, rows_fst, ← playlist_idx] at hi
          rcases List.mem_append.1 hi with hi | hi
          · exact .inl hi
          · exact .inr (List.mem_singleton.1 hi)
        have ht3 : t3.man.tgt = t.man.tgt := by rw [p6.kept.tgt]; unfold Man.tgt; rw [p2.target, p2.targetSegs]
        have hc3 : t3.man.conf = t.man.conf := by rw [p6.kept.conf, p2.mconf]
        by_cases hc : 0 < t3.man.segCount ∧ 0 < dur
        · refine .add ?_ hsub
          rw [if_pos hc] at p12 p13
          show (t'.man.target, t'.man.targetSegs) = _
          rw [p12, p13]
          show (manPostAdd t3.man dur).tgt = _
          rw [manPostAdd_tgt, hc3, ht3]
        · rw [if_neg hc] at p12 p13
          have htg : t'.man.tgt = t.man.tgt := by
            rw [← ht3]; unfold Man.tgt; rw [p12, p13]
          by_cases hz : dur = 0
          · subst hz; exact .zero htg hsub
          · refine .cut (fun _ h => nomatch h) htg (fun i hi => ?_)
            rw [playlist_idx, ← rows_fst, p8, rows_empty (by omega)] at hi
            exact absurd hi List.not_mem_nil
  | _ => 
    have e : t' = t := hm
    subst e; exact ⟨.inl rfl, .cut (fun _ h => nomatch h) rfl (fun _ h => h)⟩

/-! ## C46 -/

theorem log_lt {mono : Bool} {s : Ch} {H : List Seg} (h : ChInv mono s H) {idx dur : Nat} {time : Int} (ha : AddOk mono H idx time dur)
    (hn : s.next ≤ idx) {g : Seg} (hg : g ∈ H) : g.idx < idx := by
  obtain ⟨pre, e, h2, _⟩ := h.log
  rw [e] at hg
  rcases List.mem_append.1 hg with hg | hg
  · have := h2 g hg; have := h.minle; omega
  · have h1 := lt_hi h.inv hg
    have : hi s.segs ≤ idx := by
      unfold hi
      cases e' : (segs s.segs.sl).getLast? with
      | none => exact Nat.zero_le _
      | some k =>
        have := (ha.1 k (by rw [h.lastEq]; exact e')).1
        exact this
    omega

theorem mem_log_update {H : List Seg} {dur : Nat} {g : Seg} (hg : g ∈ log H (.updateLast dur)) :
    (g ∈ H ∧ g ∈ H.dropLast) ∨ ∃ k, H.getLast? = some k ∧ g = { k with dur } := by
  rcases SegmentList.snoc_cases H with e | ⟨B, k, e⟩
  · subst e; exact absurd hg List.not_mem_nil
  · subst e
    have : log (B ++ [k]) (.updateLast dur) = B ++ [{ k with dur }] := by
      unfold log
      dsimp only
      rw [List.getLast?_append]
      simp [SegmentList.setLast_concat]
    rw [this] at hg
    rcases List.mem_append.1 hg with hg | hg
    · exact .inl ⟨List.mem_append_left _ hg, by rw [List.dropLast_concat]; exact hg⟩
    · exact .inr ⟨k, by simp, List.mem_singleton.1 hg⟩

theorem log_mono {H : List Seg} {op : Op} (h : ∀ dur, op ≠ .updateLast dur) {g : Seg} (hg : g ∈ H) : g ∈ log H op := by
  cases op with
  | add now time idx dur force => exact List.mem_append_left _ hg
  | updateLast dur => exact absurd rfl (h dur)
  | _ => exact hg

theorem tgt_one (c : MConf) (a : Nat × Nat) (dur : Nat) : (tgt c a dur).1 = a.1 ∨ (tgt c a dur).1 = dur ∧ a.1 < dur := by
  unfold tgt
  split
  · split
    · exact .inr ⟨rfl, by omega⟩
    · exact .inl rfl
  · exact .inl rfl

theorem Man.tgt_fst {m : Man} {a : Nat × Nat} (h : m.tgt = a) : m.target = a.1 := by rw [← h]; rfl

/-- The target duration is zero, or the duration of a segment that was added. -/
theorem target_some {mono : Bool} {s : Ch} {H : List Seg} (hr : Reach mono s H) : ∀ t ∈ s.tls, t.man.target = 0 ∨ ∃ g ∈ H, g.dur = t.man.target := by
  induction hr with
  | init next scale h => exact fun t ht => absurd ht List.not_mem_nil
  | @step s s' H op hr hg he ih =>
    intro t' ht'
    rcases step_moved he t' ht' with ⟨t, ht, hm⟩ | ⟨_, _, _, _, _, _, _, _, _, _, _, _, h0, _⟩
    · have hI := reach_inv hr
      -- a segment keeps its duration, unless that is zero
      have keep : ∀ g ∈ H, 0 < g.dur → step s op = .ok s' → g ∈ log H op := by
        intro g hgH hpos hst
        by_cases ho : ∃ dur, op = .updateLast dur
        · obtain ⟨dur, rfl⟩ := ho
          have hpend : s.pend = true := by
            unfold step updateLast at hst
            dsimp only at hst
            split at hst
            · exact nomatch hst
            · rename_i h; simpa using h
          obtain ⟨k, k1, k2⟩ := hI.pend hpend
          rcases SegmentList.snoc_cases H with e | ⟨B, x, e⟩
          · subst e; exact absurd hgH List.not_mem_nil
          · subst e
            rw [List.getLast?_append] at k1
            simp at k1
            unfold log
            dsimp only
            rw [List.getLast?_append]
            simp only [List.getLast?_singleton, Option.some_or, SegmentList.setLast_concat]
            rcases List.mem_append.1 hgH with h | h
            · exact List.mem_append_left _ h
            · rw [List.mem_singleton.1 h, k1] at hpos; omega
        · exact log_mono (fun dur h => ho ⟨dur, h⟩) hgH
      have same : t'.man.target = t.man.target → t'.man.target = 0 ∨ ∃ g ∈ log H op, g.dur = t'.man.target := by
        intro e
        rw [e]
        rcases ih t ht with h | ⟨g, h1, h2⟩
        · exact .inl h
        · by_cases hz : t.man.target = 0
          · exact .inl hz
          · exact .inr ⟨g, keep g h1 (by omega) he, h2⟩
      cases (moved_tgt hr hg ht hm).2 with
      | cut _ e _ => exact same (Man.tgt_fst e)
      | zero e _ => exact same (Man.tgt_fst e)
      | @add now time idx dur force _ _ e _ =>
        rcases tgt_one t.man.conf t.man.tgt dur with h | ⟨h, _⟩
        · exact same ((Man.tgt_fst e).trans h)
        · exact .inr ⟨⟨idx, time, dur⟩, List.mem_append_right _ (by simp), ((Man.tgt_fst e).trans h).symm⟩
      | old e _ _ => exact same (Man.tgt_fst e)
      | @last dur _ _ e _ =>
        rcases tgt_one t.man.conf t.man.tgt dur with h | ⟨h, _⟩
        · exact same ((Man.tgt_fst e).trans h)
        · rcases SegmentList.snoc_cases H with eH | ⟨B, x, eH⟩
          · exfalso
            subst eH
            have hpend : s.pend = true := by
              unfold step updateLast at he
              dsimp only at he
              split at he
              · exact nomatch he
              · rename_i h; simpa using h
            obtain ⟨k, k1, k2⟩ := hI.pend hpend
            exact absurd k1 (by simp)
          · subst eH
            refine .inr ⟨{ x with dur }, ?_, ((Man.tgt_fst e).trans h).symm⟩
            unfold log
            dsimp only
            rw [List.getLast?_append]
            simp [SegmentList.setLast_concat]
    · exact .inl h0

/-- As `Reach`, by operations of a kind. -/
inductive ReachBy (P : Op → Prop) (mono : Bool) : Ch → List Seg → Prop
  | init (next scale : Nat) (h : next < 2 ^ 32) : ReachBy P mono (init next scale) []
  | step {s s' : Ch} {H : List Seg} {op : Op} : ReachBy P mono s H → P op → Guard mono s H op → step s op = .ok s' → ReachBy P mono s' (log H op)

theorem ReachBy.reach {P : Op → Prop} {mono : Bool} {s : Ch} {H : List Seg} (h : ReachBy P mono s H) : Reach mono s H := by
  induction h with
  | init next scale h => exact .init next scale h
  | step _ _ hg he ih => exact .step ih hg he

/-- The operation configures no number of segments after which the target duration is fixed. -/
def NoFixed : Op → Prop
  | .create _ m _ => m.tdSegs = 0
  | .update _ _ m => m.tdSegs = 0
  | _ => True

theorem validate_td {c c' : Conf} {m m' : MConf} (h : validate c m = .ok (c', m')) : m'.tdSegs = m.tdSegs := by
  unfold validate at h
  dsimp only at h
  repeat' split at h
  all_goals first | (cases h; rfl) | cases h

theorem tgt_zero {c : MConf} (h : c.tdSegs = 0) (a : Nat × Nat) (dur : Nat) : dur ≤ (tgt c a dur).1 ∧ a.1 ≤ (tgt c a dur).1 := by
  unfold tgt
  rw [if_pos (.inl (by omega))]
  dsimp only
  split <;> omega

theorem covers {mono : Bool} {s : Ch} {H : List Seg} (hr : ReachBy NoFixed mono s H) :
    ∀ t ∈ s.tls, t.man.conf.tdSegs = 0 ∧ ∀ g ∈ H, g.idx ∈ (playlist t).map (·.idx) → g.dur ≤ t.man.target := by
  induction hr with
  | init next scale h => exact fun t ht => absurd ht List.not_mem_nil
  | @step s s' H op hrb hP hg he ih =>
    intro t' ht'
    have hr := hrb.reach
    have hI := reach_inv hr
    rcases step_moved he t' ht' with ⟨t, ht, hm⟩ | ⟨c, m, now, eo, c', m', a, hv, _, _, _, hc, h0, _, hs, _⟩
    · obtain ⟨ih1, ih2⟩ := ih t ht
      obtain ⟨h1, h2⟩ := hI.tl t ht
      obtain ⟨hconf, hstep⟩ := moved_tgt hr hg ht hm
      refine ⟨?_, ?_⟩
      · rcases hconf with e | ⟨id, c, m, c', m', eo, hv, e⟩
        · rw [e]; exact ih1
        · rw [e, validate_td hv]; subst eo; exact hP
      · have hlow : ∀ i ∈ (playlist t).map (·.idx), i < hi s.segs := by
          intro i hi
          obtain ⟨r, hr, e⟩ := List.mem_map.1 hi
          have := (playlist_mem hI.inv h1 h2 hr).1
          omega
        cases hstep with
        | cut ho e hsub =>
          intro g hg' hmem
          rw [Man.tgt_fst e]
          have hin := hsub _ hmem
          have : g ∈ H := by
            cases op with
            | add now time idx dur force =>
              rcases List.mem_append.1 hg' with h | h
              · exact h
              · exfalso
                have e1 := List.mem_singleton.1 h
                have := hlow _ hin
                rw [e1] at this
                have hh : hi s.segs ≤ idx := by
                  rw [hi_log hI]
                  cases e' : H.getLast? with
                  | none => exact Nat.zero_le _
                  | some k => exact (hg.1.1 k e').1
                dsimp only at this
                omega
            | updateLast dur => exact absurd rfl (ho dur)
            | _ => exact hg'
          exact ih2 g this hin
        | @zero now time idx force _ _ e hsub =>
          intro g hg' hmem
          rw [Man.tgt_fst e]
          rcases List.mem_append.1 hg' with h | h
          · rcases hsub _ hmem with h3 | h3
            · exact ih2 g h h3
            · have := log_lt hI hg.1 hg.2.1 h; omega
          · rw [List.mem_singleton.1 h]; exact Nat.zero_le _
        | @add now time idx dur force _ _ e hsub =>
          intro g hg' hmem
          rw [Man.tgt_fst e]
          obtain ⟨t1, t2⟩ := tgt_zero ih1 t.man.tgt dur
          rcases List.mem_append.1 hg' with h | h
          · rcases hsub _ hmem with h3 | h3
            · exact Nat.le_trans (ih2 g h h3) t2
            · have := log_lt hI hg.1 hg.2.1 h; omega
          · rw [List.mem_singleton.1 h]; exact t1
        | @old dur _ _ e hpl hn =>
          intro g hg' hmem
          rw [Man.tgt_fst e]
          rw [hpl] at hmem
          rcases mem_log_update hg' with ⟨h, _⟩ | ⟨k, h, e2⟩
          · exact ih2 g h hmem
          · rw [e2] at hmem
            rw [hI.last k h] at hn
            exact absurd hmem hn
        | @last dur _ _ e hpl =>
          intro g hg' hmem
          rw [Man.tgt_fst e]
          rw [hpl] at hmem
          obtain ⟨t1, t2⟩ := tgt_zero ih1 t.man.tgt dur
          rcases mem_log_update hg' with ⟨h, _⟩ | ⟨k, h, e2⟩
          · exact Nat.le_trans (ih2 g h hmem) t2
          · rw [e2]; exact t1
    · refine ⟨by rw [hc, validate_td hv]; subst eo; exact hP, fun g _ hmem => ?_⟩
      rw [playlist_idx] at hmem
      unfold shown at hmem
      rw [if_pos hs] at hmem
      exact absurd hmem List.not_mem_nil

/-- **C46.** When no timeline is configured to fix its target duration after some segments, every segment of a response has at most
the target duration of the response. -/
theorem target_covers {mono : Bool} {s : Ch} {H : List Seg} (hr : ReachBy NoFixed mono s H) {t : Tl} (ht : t ∈ s.tls) (hc : 0 < t.man.segCount)
    {sd : Nat} {trk : Option Trk} {max : Nat} {hd : Hdr} {ps : List SPer} (h : serve s t sd trk max = .ok (hd, ps)) :
    ∀ p ∈ ps, ∀ g ∈ p.segs, g.dur ≤ hd.target := by
  have hI := reach_inv hr.reach
  obtain ⟨a, b, c1, c2, _, _, _, _, c3, _, c4⟩ := serve_spec hI ht hc sd trk max
  rw [h] at c1
  injection c1 with c1
  injection c1 with ea eb
  subst ea eb
  intro p hp g hg
  obtain ⟨k, hk, e⟩ := c3 p hp g hg
  have hidx : g.idx = k.idx := by rw [e]; unfold mask; split <;> rfl
  have hdur : g.dur ≤ k.dur := by
    rw [e]; unfold mask; split
    · exact Nat.zero_le _
    · exact Nat.le_refl _
  have hin : k.idx ∈ (playlist t).map (·.idx) := by
    have : g.idx ∈ (clientRows hd ps).map (·.idx) := by
      unfold clientRows
      rw [numbered_idx]
      have hs : ∀ (l : List SPer) (d : Nat), p ∈ l → g.idx ∈ (srows d l).map (·.1) := by
        intro l
        induction l with
        | nil => intro d h; exact absurd h List.not_mem_nil
        | cons x l ih =>
          intro d h
          rw [srows, List.map_append]
          rcases List.mem_cons.1 h with e | h
          · subst e
            refine List.mem_append_left _ ?_
            rw [List.map_map]
            exact List.mem_map.2 ⟨g, hg, rfl⟩
          · exact List.mem_append_right _ (ih _ h)
      exact hs ps _ hp
    rw [c2] at this
    obtain ⟨r, hr, e⟩ := List.mem_map.1 this
    rw [← hidx, ← e]
    exact List.mem_map.2 ⟨r, (List.mem_filter.1 hr).1, rfl⟩
  have := (covers hr t ht).2 k hk hin
  rw [c4]
  split <;> omega

end Verif.Timeline
