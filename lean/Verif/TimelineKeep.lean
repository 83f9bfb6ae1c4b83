import Verif.TimelineTgt

/-!
# Timelines: which segments are kept, for the operations of a channel
-/

namespace Verif.Timeline

open Verif.SegmentList (SL Iter Seg Inv seq segs ahead AddOk sub32 add32)

/-- The segments of the log with some indexes. -/
def Of (H : List Seg) (is : List Nat) (w : List Seg) : Prop := w.map (·.idx) = is ∧ ∀ g ∈ w, g ∈ H

theorem keys_ge {q : Segs} {t : Tl} (ht : TlInv q t) {m : Nat} (hm : ∀ p ∈ t.periods, m ≤ p.key) : (∀ i ∈ ids t.periods, m ≤ i) ∧
    ∀ i ∈ (playlist t).map (·.idx), m ≤ i := by
  have h1 : ∀ i ∈ ids t.periods, m ≤ i := fun i hi => by
    obtain ⟨p, hp, h1, _⟩ := mem_ids.1 hi
    have := hm p hp
    omega
  refine ⟨h1, fun i hi => ?_⟩
  obtain ⟨k, e⟩ := shown_suffix ht
  rw [playlist_idx, e] at hi
  exact h1 i (List.mem_of_mem_drop hi)

theorem Of.lists {mono : Bool} {s : Ch} {H : List Seg} (hI : ChInv mono s H) {is : List Nat} {w : List Seg} (h : Of H is w) (hm : ∀ i ∈ is, s.minIdx ≤ i) :
    Lists s.segs is w := by
  refine ⟨h.1, fun g hg => ?_⟩
  obtain ⟨pre, e, h2, _⟩ := hI.log
  have h3 := h.2 g hg
  rw [e] at h3
  rcases List.mem_append.1 h3 with h4 | h4
  · have := h2 g h4
    have := hm g.idx (by rw [← h.1]; exact List.mem_map.2 ⟨g, hg, rfl⟩)
    omega
  · exact h4

theorem total_le {w : List Seg} {D : Nat} (h : ∀ g ∈ w, g.dur ≤ D) : total w ≤ w.length * D := by
  induction w with
  | nil => exact Nat.zero_le _
  | cons g w ih =>
    have h1 := h g (by simp)
    have h2 := ih (fun x hx => h x (by simp [hx]))
    rw [total_cons, List.length_cons, Nat.succ_mul]
    omega

theorem ids_length_le {q : Segs} {t : Tl} {mono : Bool} (hq : Inv mono q.sl) (ht : TlInv q t) : (ids t.periods).length ≤ hi q := by
  rw [ids_length]
  have := counts_le (a := 0) ht.sorted (fun p hp => (ht.good p hp).le_hi hq) (fun _ _ => Nat.zero_le _) (Nat.zero_le _)
  omega

/-- **C45.** What a segment that is added does to a timeline that admits it: the new playlist is the old one with the segment at the
end, cut at the front by the rule of the playlist; the new timeline is the old one with the segment at the end, cut by its own rule. -/
theorem add_window {mono : Bool} {s s' : Ch} {H : List Seg} (hr : Reach mono s H) {now time : Int} {idx dur : Nat} {force : Bool}
    (hg : Guard mono s H (.add now time idx dur force)) (he : step s (.add now time idx dur force) = .ok s') {t t' : Tl} (ht : t ∈ s.tls) (ht' : t' ∈ s'.tls)
    (hid : t'.id = t.id) (ha : Admits t (time + (dur / 2 : Nat))) (hD : ∀ g ∈ H, g.dur < 2 ^ 30) (hd : dur < 2 ^ 30) {w l : List Seg}
    (hw : Of H ((playlist t).map (·.idx)) w) (hl : Of H (ids t.periods) l) :
    let w' := trim (keepMan t.man.conf t.man.target 0 0) (w ++ [⟨idx, time, dur⟩])
    (playlist t').map (·.idx) = w'.map (·.idx) ∧
      ids t'.periods = (trim (keepTl t.conf w'.length 0 0) (l ++ [⟨idx, time, dur⟩])).map (·.idx) := by
  intro w'
  have hI := reach_inv hr
  obtain ⟨h1, h2, h3⟩ := hI.tls t ht
  obtain ⟨g1, g2, g3⟩ := hg
  have ha' : AddOk mono (segs s.segs.sl) idx time dur := ⟨by rw [← hI.lastEq]; exact g1.1, g1.2⟩
  rcases step_moved he t' ht' with ⟨t0, ht0, hm⟩ | ⟨_, _, _, eo, _⟩
  · obtain ⟨sl, min, min', ex, e, ho⟩ := hm
    have hi1 := SegmentList.add_spec hI.inv ha' e
    have hb0 := hI.tl t0 ht0
    have hper : t0.man.firstIdx + t0.man.perCount < 2 ^ 32 := by have := hb0.2.per; have := hI.top; omega
    have hlift : TlInv { s.segs with sl } t0 := hb0.1.lift (fun s' _ => s'.add hI.inv ha' e)
    have et : t0 = t := by
      refine unique_id hI.idlt ht0 ht ?_
      rw [← hid]
      unfold addOne at ho
      split at ho
      · obtain ⟨⟨x, m⟩, hx, h'⟩ := bind_eq_ok ho
        injection h' with h'
        injection h' with h'
        subst h'
        obtain ⟨t1, m1, r1, r2, r3, r4⟩ := inactiveRemove_spec (now := now) (scale := s.scale) (min := min) (q := { s.segs with sl }) hi1.1 hlift hper
        have r1 := hx.symm.trans r1
        injection r1 with r1; injection r1 with r1; subst r1
        exact r3.id.symm
      · split at ho
        · obtain ⟨⟨x, m⟩, hx, h'⟩ := bind_eq_ok ho
          injection h' with h'
          injection h' with h'
          subst h'
          have hl2 : TlInv { s.segs with sl } { t0 with conf := { t0.conf with active := false } } :=
            ⟨hlift.good, hlift.sorted, hlift.pids, hlift.nid, hlift.cs, hlift.cd, hlift.cp, hlift.man⟩
          obtain ⟨t1, m1, r1, r2, r3, r4⟩ := inactiveRemove_spec (now := now) (scale := s.scale) (min := min) (q := { s.segs with sl }) hi1.1 hl2 hper
          have r1 := hx.symm.trans r1
          injection r1 with r1; injection r1 with r1; subst r1
          exact r3.id.symm
        · obtain ⟨t2, t3, p1, p2, p3, p4, p5, p6, p7, p8, p9, p10, p11, p12, p13, p14⟩ := addTl_parts hI.inv ha' g3 e hb0.1 hb0.2 now force min ho
          exact p14.symm
    subst et
    obtain ⟨a1, a2, a3⟩ := ha
    unfold addOne at ho
    rw [if_neg (by rw [a1]; simp only [not_true_eq_false, false_or]; omega), if_neg (by omega)] at ho
    obtain ⟨t2, t3, p1, p2, p3, p4, p5, p6, p7, p8, p9, p10, p11, p12, p13, p14⟩ := addTl_parts hI.inv ha' g3 e h1 h2 now force min ho
    obtain ⟨k1, k2⟩ := keys_ge h1 h3
    have hwl := hw.lists hI k2
    have hll := hl.lists hI k1
    have grow : ∀ {is : List Nat} {v : List Seg}, Lists s.segs is v → Lists { s.segs with sl } (is ++ [idx]) (v ++ [⟨idx, time, dur⟩]) := by
      intro is v hv
      refine ⟨by rw [List.map_append, hv.idx]; rfl, fun g hg => ?_⟩
      show g ∈ segs sl
      rw [hi1.2]
      rcases List.mem_append.1 hg with h | h
      · exact List.mem_append_left _ (hv.mem g h)
      · exact List.mem_append_right _ h
    have hw2 : Lists { s.segs with sl } (ids (shown t2.periods t2.man)) (w ++ [⟨idx, time, dur⟩]) := by
      rw [← rows_fst, p2.rows, List.map_append, rows_fst, ← playlist_idx]
      exact grow hwl
    have hl2 : Lists { s.segs with sl } (ids t2.periods) (l ++ [⟨idx, time, dur⟩]) := by
      rw [p2.ids]; exact grow hll
    have hq : ∀ g ∈ segs sl, g.dur < 2 ^ 30 := by
      intro g hg
      rw [hi1.2] at hg
      rcases List.mem_append.1 hg with h | h
      · obtain ⟨pre, e, _⟩ := hI.log
        exact hD g (by rw [e]; exact List.mem_append_right _ h)
      · rw [List.mem_singleton.1 h]; exact hd
    have hhi : hi s.segs ≤ idx := by
      rw [hi_log hI]
      cases e' : H.getLast? with
      | none => exact Nat.zero_le _
      | some k => exact (g1.1 k e').1
    unfold invalidIdx at g3
    have len2 : (l ++ [(⟨idx, time, dur⟩ : Seg)]).length ≤ idx + 1 := by
      have := ids_length_le hI.inv h1
      rw [List.length_append, hll.length]
      show _ + 1 ≤ _
      omega
    have lenw : (w ++ [(⟨idx, time, dur⟩ : Seg)]).length ≤ idx + 1 := by
      have := ids_length_le hI.inv h1
      obtain ⟨k, ek⟩ := shown_suffix h1
      rw [List.length_append, hwl.length, playlist_idx, ek, List.length_drop]
      show _ + 1 ≤ _
      omega
    have big : ∀ {v : List Seg}, v.length ≤ idx + 1 → (∀ g ∈ v, g ∈ segs sl) → total v < 2 ^ 64 := by
      intro v hv hm
      have h1 := total_le (w := v) (D := 2 ^ 30) (fun g hg => Nat.le_of_lt (hq g (hm g hg)))
      have h2 : v.length * 2 ^ 30 ≤ 2 ^ 32 * 2 ^ 30 := Nat.mul_le_mul_right _ (by omega)
      omega
    have htgt : t2.man.target < 2 ^ 30 := by
      rw [p2.target]
      rcases target_some hr t0 ht0 with h | ⟨g, h, e⟩
      · omega
      · rw [← e]; exact hD g h
    obtain ⟨r1, r2⟩ := removeSegs_trim (q := { s.segs with sl }) hi1.1 p1 p3 p4 hw2 hl2 (by omega) (big len2 hl2.mem) (by omega) (big lenw hw2.mem)
      (fun g hg => by have := hq g (hw2.mem g hg); omega)
    rw [p2.mconf, p2.target] at r1 r2
    rw [p2.conf] at r2
    refine ⟨?_, ?_⟩
    · rw [playlist_idx, ← rows_fst, p8]
      exact r1.idx.symm
    · rw [p7]
      exact r2.idx.symm
  · exact nomatch eo

/-- A list that was cut may be kept, or nothing is left. -/
theorem trim_keeps (keep : List Seg → Bool) : ∀ (w : List Seg), trim keep w = [] ∨ keep (trim keep w) = true
  | [] => .inl rfl
  | g :: l => by
    rw [trim]
    split
    · rename_i h; exact .inr h
    · exact trim_keeps keep l

/-- No more is cut than needed: every list that was cut might not be kept. -/
theorem trim_least (keep : List Seg → Bool) : ∀ (w : List Seg), ∃ k, trim keep w = w.drop k ∧ ∀ j, j < k → j < w.length → keep (w.drop j) = false
  | [] => ⟨0, rfl, by omega⟩
  | g :: l => by
    rw [trim]
    split
    · exact ⟨0, rfl, by omega⟩
    · rename_i h
      obtain ⟨k, e, hk⟩ := trim_least keep l
      refine ⟨k + 1, by rw [e]; rfl, fun j hj hl => ?_⟩
      cases j with
      | zero => simpa using h
      | succ j => exact hk j (by omega) (by rw [List.length_cons] at hl; omega)

/-- A live playlist from which segments are removed keeps three times the target duration it had. -/
theorem trim_three {c : MConf} {target : Nat} (hc : c.endList = 0) : ∀ (w : List Seg), trim (keepMan c target 0 0) w = w ∨
    3 * target ≤ total (trim (keepMan c target 0 0) w)
  | [] => .inl rfl
  | g :: l => by
    rw [trim]
    split
    · exact .inl rfl
    · rename_i h
      right
      rcases trim_three hc l with e | e
      · rw [e]
        unfold keepMan at h
        rw [Bool.or_eq_true, not_or, Bool.and_eq_true, Bool.and_eq_true] at h
        have := h.2
        simp only [hc, decide_true, true_and, decide_eq_true_eq, Nat.not_lt] at this
        rw [total_cons] at this
        have : 3 * target + g.dur ≤ g.dur + total l := this
        omega
      · exact e

/-- **C45**, in part: the claim with the target duration after the segment was added is false (`three_targets_fails`). The playlist
after a segment was added is in the configured limits, or it is live and would have less than three (old) target
durations without its first segment. A live playlist that lost segments has at least three (old) target durations. -/
theorem add_limits_partial {mono : Bool} {s s' : Ch} {H : List Seg} (hr : Reach mono s H) {now time : Int} {idx dur : Nat} {force : Bool}
    (hg : Guard mono s H (.add now time idx dur force)) (he : step s (.add now time idx dur force) = .ok s') {t t' : Tl} (ht : t ∈ s.tls) (ht' : t' ∈ s'.tls)
    (hid : t'.id = t.id) (ha : Admits t (time + (dur / 2 : Nat))) (hD : ∀ g ∈ H, g.dur < 2 ^ 30) (hd : dur < 2 ^ 30) {w : List Seg}
    (hw : Of H ((playlist t).map (·.idx)) w) :
    ∃ w', Of (H ++ [⟨idx, time, dur⟩]) ((playlist t').map (·.idx)) w' ∧ (∃ k, w' = (w ++ [(⟨idx, time, dur⟩ : Seg)]).drop k) ∧
      (w' = [] ∨ (w'.length ≤ t.man.conf.maxSegs ∧ total w' ≤ t.man.conf.maxDur) ∨
        (t.man.conf.endList = 0 ∧ total w' < 3 * t.man.target + headDur w')) ∧
      (t.man.conf.endList = 0 → w' = w ++ [⟨idx, time, dur⟩] ∨ 3 * t.man.target ≤ total w') := by
  have hI := reach_inv hr
  obtain ⟨h1, h2, h3⟩ := hI.tls t ht
  obtain ⟨l, l1, _, _⟩ := lists_of h1.good
  have hl : Of H (ids t.periods) l := ⟨l1.idx, fun g hg => by
    obtain ⟨pre, e, _⟩ := hI.log
    rw [e]; exact List.mem_append_right _ (l1.mem g hg)⟩
  obtain ⟨e1, _⟩ := add_window hr hg he ht ht' hid ha hD hd hw hl
  refine ⟨_, ⟨e1.symm, fun g hg => ?_⟩, trim_suffix _ _, ?_, fun hc => trim_three hc _⟩
  · obtain ⟨k, e⟩ := trim_suffix (keepMan t.man.conf t.man.target 0 0) (w ++ [⟨idx, time, dur⟩])
    rw [e] at hg
    rcases List.mem_append.1 (List.mem_of_mem_drop hg) with h | h
    · exact List.mem_append_left _ (hw.2 g h)
    · exact List.mem_append_right _ h
  · rcases trim_keeps (keepMan t.man.conf t.man.target 0 0) (w ++ [⟨idx, time, dur⟩]) with e | e
    · exact .inl e
    · generalize trim (keepMan t.man.conf t.man.target 0 0) (w ++ [⟨idx, time, dur⟩]) = v at e
      unfold keepMan at e
      rw [Bool.or_eq_true, Bool.and_eq_true, Bool.and_eq_true] at e
      rcases e with ⟨a, b⟩ | ⟨a, b⟩
      · exact .inr (.inl ⟨of_decide_eq_true a, of_decide_eq_true b⟩)
      · exact .inr (.inr ⟨of_decide_eq_true a, of_decide_eq_true b⟩)

/-! ## C44, C47 -/

/-- **C44.** A response lists, in order, the last segments that the timeline admitted, up to the last one that may be shown. -/
theorem response_admitted {mono : Bool} {s : Ch} {H : List Seg} {A : Nat → List Nat} (hr : Run mono s H A) {t : Tl} (ht : t ∈ s.tls)
    (hc : 0 < t.man.segCount) {sd : Nat} {trk : Option Trk} {max : Nat} {hd : Hdr} {ps : List SPer} (h : serve s t sd trk max = .ok (hd, ps)) :
    ∃ k, (ps.flatMap SPer.segs).map (·.idx) = ((A t.id).drop k).filter (fun i => i ≤ max) := by
  have hI := reach_inv hr.reach
  obtain ⟨a, b, c1, c2, _⟩ := serve_spec hI ht hc sd trk max
  rw [h] at c1
  injection c1 with c1
  injection c1 with ea eb
  subst ea eb
  obtain ⟨j, ej⟩ := (run_held hr).1 t ht
  obtain ⟨k, ek⟩ := shown_suffix (hI.tls t ht).1
  refine ⟨j + k, ?_⟩
  have hs : ∀ (l : List SPer) (d : Nat), (srows d l).map (·.1) = (l.flatMap SPer.segs).map (·.idx) := by
    intro l
    induction l with
    | nil => intro d; rfl
    | cons x l ih =>
      intro d
      rw [srows, List.map_append, ih, List.flatMap_cons, List.map_append, List.map_map]
      rfl
  have h1 : (clientRows hd ps).map (·.idx) = (ps.flatMap SPer.segs).map (·.idx) := by
    unfold clientRows; rw [numbered_idx, hs]
  rw [← h1, c2, ← List.drop_drop, ← ej, ← ek, ← playlist_idx, List.filter_map]
  rfl

/-- **C47.** Every operation is defined, on every channel: no period or node that was given back is used. -/
theorem never_ub {mono : Bool} {s : Ch} {H : List Seg} (hr : Reach mono s H) {op : Op} (hg : Guard mono s H op) : step s op ≠ .ub := by
  rcases step_spec (reach_inv hr) hg with ⟨s', e, _⟩ | e
  · rw [e]; exact fun h => nomatch h
  · rw [e]; exact fun h => nomatch h

/-- **C47.** Every segment of a timeline is still in the list of the channel, with the time and duration of the log; only segments
that are before every timeline are not. -/
theorem retained {mono : Bool} {s : Ch} {H : List Seg} (hr : Reach mono s H) :
    (∀ t ∈ s.tls, ∀ i ∈ ids t.periods, s.minIdx ≤ i ∧ ∃ g ∈ segs s.segs.sl, g.idx = i ∧ g ∈ H) ∧
    ∃ pre, H = pre ++ segs s.segs.sl ∧ ∀ g ∈ pre, g.idx < s.minIdx := by
  have hI := reach_inv hr
  obtain ⟨pre, e, h2, _⟩ := hI.log
  refine ⟨fun t ht i hi => ?_, pre, e, h2⟩
  obtain ⟨h1, _, h3⟩ := hI.tls t ht
  refine ⟨(keys_ge h1 h3).1 i hi, ?_⟩
  obtain ⟨w, w1, _, _⟩ := lists_of h1.good
  rw [← w1.idx] at hi
  obtain ⟨g, hg, eg⟩ := List.mem_map.1 hi
  exact ⟨g, w1.mem g hg, eg, by rw [e]; exact List.mem_append_right _ (w1.mem g hg)⟩

/-- **C47.** After a segment was added, the segments that are kept begin with the next index of the channel or with the first segment
of some timeline: nothing is kept for ever. -/
theorem freed {mono : Bool} {s s' : Ch} {H : List Seg} (hr : Reach mono s H) {now time : Int} {idx dur : Nat} {force : Bool}
    (hg : Guard mono s H (.add now time idx dur force)) (he : step s (.add now time idx dur force) = .ok s') :
    s'.minIdx = s'.next ∨ ∃ t ∈ s'.tls, (ids t.periods).head? = some s'.minIdx := by
  have hI := reach_inv hr
  obtain ⟨g1, g2, g3⟩ := hg
  have ha' : AddOk mono (segs s.segs.sl) idx time dur := ⟨by rw [← hI.lastEq]; exact g1.1, g1.2⟩
  have hhi : hi s.segs ≤ idx := by
    rw [hi_log hI]
    cases e' : H.getLast? with
    | none => exact Nat.zero_le _
    | some k => exact (g1.1 k e').1
  unfold step addSeg at he
  dsimp only at he
  split at he
  · exact nomatch he
  · obtain ⟨⟨x, ex⟩, h1, he⟩ := bind_eq_ok he
    obtain ⟨sl, h2, h1⟩ := bind_eq_ok h1
    obtain ⟨⟨tls, min, ex'⟩, h3, h1⟩ := bind_eq_ok h1
    injection he with he
    injection h1 with h1
    injection h1 with h1
    subst he
    subst h1
    obtain ⟨ts', m2, ex2, j1, j2, j3, j4, j5⟩ := addAll_spec hI.inv ha' g3 h2 (b := max (hi s.segs) s.next) (by omega) hhi now
      (time + (dur / 2 : Nat)) s.scale force s.tls s.next hI.tl
    have j1 := j1.symm.trans h3
    injection j1 with j1
    injection j1 with e1 e2
    injection e2 with e2
    subst e1 e2
    rcases j5 with e | ⟨t, ht, p, hp, e⟩
    · exact .inl e
    · refine .inr ⟨t, ht, ?_⟩
      show _ = some m2
      obtain ⟨t0, _, hadd⟩ := j2.right t ht
      have hti := hadd.inv
      cases hps : t.periods with
      | nil => rw [hps] at hp; exact absurd hp List.not_mem_nil
      | cons p0 ps =>
        have hpos := (hti.good p0 (by rw [hps]; simp)).pos
        have hle := j4 t ht p0 (by rw [hps]; simp)
        have hso := hti.sorted
        rw [hps] at hso hp
        have : p0.key = m2 := by
          rcases List.mem_cons.1 hp with e' | hp
          · rw [e, e']
          · have := (List.pairwise_cons.1 hso).1 p hp; omega
        rw [ids_cons, show p0.count = (p0.count - 1) + 1 by omega, List.range'_succ, this]
        rfl

end Verif.Timeline
