import Verif.TimelineKeep

/-!
# The end of the list
-/

namespace Verif.Timeline

open Verif.SegmentList (Seg Inv segs sub32 add32 setLast)

/-- The last segment of a timeline is the last one of its playlist. -/
theorem last_row {q : Segs} {t : Tl} (ht : TlInv q t) (hc : 0 < t.man.segCount) :
    ∃ p, t.periods.getLast? = some p ∧ sub32 (p.key + p.count) 1 = p.key + p.count - 1 ∧ p.key + p.count - 1 ∈ (playlist t).map (·.idx) ∧
      ∀ i ∈ (playlist t).map (·.idx), i ≤ p.key + p.count - 1 := by
  have hlen : (playlist t).length = t.man.segCount := by unfold playlist; rw [numbered_length, ht.rows_length]
  have hl : ((playlist t).map (·.idx)).length = t.man.segCount := by rw [List.length_map, hlen]
  obtain ⟨k, hk⟩ := shown_suffix ht
  rw [← playlist_idx] at hk
  rcases SegmentList.snoc_cases t.periods with e | ⟨A, p, e⟩
  · rw [e] at hk; rw [hk] at hl; simp [ids] at hl; omega
  · have hp : 0 < p.count := (ht.good p (by rw [e]; simp)).pos
    refine ⟨p, by rw [e]; simp, by unfold sub32; rw [if_pos (by omega)], ?_, ?_⟩
    · have hd : (ids t.periods).getLast? = some (p.key + p.count - 1) := by
        rw [e, ids_append, ids_cons, show ids ([] : List Per) = [] from rfl, List.append_nil, List.getLast?_append]
        obtain ⟨c, hc'⟩ : ∃ c, p.count = c + 1 := ⟨p.count - 1, by omega⟩
        rw [hc', List.range'_concat]
        simp
      have hne : (ids t.periods).drop k ≠ [] := by
        intro hn; rw [hk, hn] at hl; simp at hl; omega
      have : ((ids t.periods).drop k).getLast? = (ids t.periods).getLast? := by
        rw [List.getLast?_drop, if_neg]
        intro hle
        exact hne (List.drop_eq_nil_of_le hle)
      rw [hk]
      exact List.mem_of_getLast? (this.trans hd)
    · intro i hi
      rw [hk] at hi
      obtain ⟨r, hr, h1, h2⟩ := mem_ids.1 (List.mem_of_mem_drop hi)
      have hs := ht.sorted
      rw [e] at hr hs
      rcases List.mem_append.1 hr with hr | hr
      · have := (List.pairwise_append.1 hs).2.2 r hr p (by simp)
        omega
      · rw [List.mem_singleton.1 hr] at h1 h2; omega

/-- The index that completes a segment on the track. -/
def doneBelow (next : Nat) (trk : Option Trk) : Nat := add32 next (match trk with
  | some k => k.pidx
  | none => 0)

/-- A segment keeps its duration. -/
def Final (mono : Bool) (s : Ch) (H : List Seg) (g : Seg) : Prop := ∀ s' H', Later mono s H s' H' → g ∈ H'

/-- Only two operations change which segment is pending on the channel. -/
theorem step_pend {s s' : Ch} {op : Op} (h : step s op = .ok s') (h1 : ∀ now time idx dur force, op ≠ .add now time idx dur force)
    (h2 : ∀ dur, op ≠ .updateLast dur) : s'.pend = s.pend ∧ s'.lastIdx = s.lastIdx := by
  cases op with
  | create c m now =>
    unfold step create at h
    dsimp only at h
    obtain ⟨_, _, h⟩ := bind_eq_ok h
    injection h with h
    rw [← h]; exact ⟨rfl, rfl⟩
  | free id =>
    injection h with h
    rw [← h]; exact ⟨rfl, rfl⟩
  | update id c m =>
    unfold step update at h
    dsimp only at h
    obtain ⟨_, _, h⟩ := bind_eq_ok h
    obtain ⟨_, _, h⟩ := bind_eq_ok h
    injection h with h
    rw [← h]; exact ⟨rfl, rfl⟩
  | get id now =>
    unfold step get at h
    dsimp only at h
    obtain ⟨_, _, h⟩ := bind_eq_ok h
    injection h with h
    rw [← h]; exact ⟨rfl, rfl⟩
  | add now time idx dur force => exact absurd rfl (h1 now time idx dur force)
  | updateLast dur => exact absurd rfl (h2 dur)
  | truncate now idx =>
    unfold step truncate at h
    dsimp only at h
    obtain ⟨_, _, h⟩ := bind_eq_ok h
    injection h with h
    rw [← h]; exact ⟨rfl, rfl⟩
  | cleanup now =>
    unfold step cleanup at h
    dsimp only at h
    split at h
    · injection h with h
      rw [← h]; exact ⟨rfl, rfl⟩
    · obtain ⟨_, _, h⟩ := bind_eq_ok h
      injection h with h
      rw [← h]; exact ⟨rfl, rfl⟩
  | next n =>
    injection h with h
    rw [← h]; exact ⟨rfl, rfl⟩
  | setActive b =>
    injection h with h
    rw [← h]; exact ⟨rfl, rfl⟩

theorem final_of {mono : Bool} {s : Ch} {H : List Seg} (hr : Reach mono s H) {g : Seg} (hg : g ∈ H) (hp : ¬(s.pend = true ∧ g.idx = s.lastIdx)) :
    Final mono s H g := by
  intro s' H' h
  suffices g ∈ H' ∧ ¬(s'.pend = true ∧ g.idx = s'.lastIdx) from this.1
  induction h with
  | refl => exact ⟨hg, hp⟩
  | @step s1 s2 H1 op hl hG he ih =>
    obtain ⟨ih1, ih2⟩ := ih
    have hI := reach_inv (hl.reach hr)
    have hI2 := reach_inv ((Later.step hl hG he).reach hr)
    have rest (h1 : ∀ now time idx dur force, op ≠ .add now time idx dur force) (h2 : ∀ dur, op ≠ .updateLast dur) (hl : log H1 op = H1) :
        g ∈ log H1 op ∧ ¬(s2.pend = true ∧ g.idx = s2.lastIdx) := by
      obtain ⟨e1, e2⟩ := step_pend he h1 h2
      rw [hl, e1, e2]; exact ⟨ih1, ih2⟩
    cases op with
    | add now time idx dur force =>
      refine ⟨by simp [log, ih1], fun h => ?_⟩
      have hlt := log_lt hI hG.1 hG.2.1 ih1
      have hl2 := hI2.last ⟨idx, time, dur⟩ (by simp [log])
      rw [hl2] at h
      have := h.2
      dsimp only at this
      omega
    | updateLast dur =>
      unfold step updateLast at he
      dsimp only at he
      split at he
      · exact nomatch he
      · rename_i hpd
        have hpd : s1.pend = true := by simpa using hpd
        obtain ⟨_, _, he⟩ := bind_eq_ok he
        obtain ⟨_, _, he⟩ := bind_eq_ok he
        injection he with he
        refine ⟨?_, by rw [← he]; simp⟩
        rcases SegmentList.snoc_cases H1 with e | ⟨A, x, e⟩
        · rw [e] at ih1; exact absurd ih1 List.not_mem_nil
        · have h3 := hI.last x (by rw [e]; simp)
          rw [e] at ih1 ⊢
          simp only [log, List.getLast?_append, List.getLast?_singleton, Option.some_or, SegmentList.setLast_concat]
          rcases List.mem_append.1 ih1 with h4 | h4
          · exact List.mem_append_left _ h4
          · exact absurd ⟨hpd, by rw [List.mem_singleton.1 h4]; exact h3.symm⟩ ih2
    | create c m now => exact rest (fun _ _ _ _ _ h => nomatch h) (fun _ h => nomatch h) rfl
    | free id => exact rest (fun _ _ _ _ _ h => nomatch h) (fun _ h => nomatch h) rfl
    | update id c m => exact rest (fun _ _ _ _ _ h => nomatch h) (fun _ h => nomatch h) rfl
    | get id now => exact rest (fun _ _ _ _ _ h => nomatch h) (fun _ h => nomatch h) rfl
    | truncate now idx => exact rest (fun _ _ _ _ _ h => nomatch h) (fun _ h => nomatch h) rfl
    | cleanup now => exact rest (fun _ _ _ _ _ h => nomatch h) (fun _ h => nomatch h) rfl
    | next n => exact rest (fun _ _ _ _ _ h => nomatch h) (fun _ h => nomatch h) rfl
    | setActive b => exact rest (fun _ _ _ _ _ h => nomatch h) (fun _ h => nomatch h) rfl

/-- **C48.** On a timeline that is configured to end, a response announces the end exactly when every segment of the playlist may be
shown, is complete on the track, and is not the pending segment of the channel. -/
theorem end_list_iff {mono : Bool} {s : Ch} {H : List Seg} (hr : Reach mono s H) {t : Tl} (ht : t ∈ s.tls) (hc : 0 < t.man.segCount)
    (he : t.man.conf.endList = 1) {sd : Nat} {trk : Option Trk} {max : Nat} {hd : Hdr} {ps : List SPer} (h : serve s t sd trk max = .ok (hd, ps)) :
    hd.endList = true ↔ ∀ r ∈ playlist t, r.idx ≤ max ∧ r.idx < doneBelow s.next trk ∧ ¬(s.pend = true ∧ r.idx = s.lastIdx) := by
  have hI := reach_inv hr
  obtain ⟨h1, h2, _⟩ := hI.tls t ht
  obtain ⟨a, b, c1, _, _, _, _, _, _, c2, _⟩ := serve_spec hI ht hc sd trk max
  rw [h] at c1
  injection c1 with c1
  injection c1 with ea eb
  subst ea eb
  obtain ⟨p, p1, p2, p3, p4⟩ := last_row h1 hc
  unfold endList at c2
  rw [if_neg (by omega), p1] at c2
  dsimp only at c2
  rw [p2, if_neg (by omega)] at c2
  have hlt : ∀ r ∈ playlist t, r.idx ≤ s.lastIdx := fun r hr' => by
    obtain ⟨q1, _⟩ := playlist_mem hI.inv h1 h2 hr'
    unfold hi at q1
    split at q1
    · omega
    · rename_i g hg
      rw [hI.last g (by rw [hI.lastEq, hg])]
      omega
  constructor
  · intro ht r hr'
    have hle := p4 r.idx (List.mem_map.2 ⟨r, hr', rfl⟩)
    have hle2 := hlt r hr'
    rw [ht] at c2
    split at c2
    · exact nomatch c2
    · split at c2
      · exact nomatch c2
      · rename_i hnp
        injection c2 with c2
        have c2 := of_decide_eq_true c2
        have c2 : ¬p.key + p.count - 1 ≥ doneBelow s.next trk := by
          cases trk <;> exact c2
        obtain ⟨r2, hr2, e2⟩ := List.mem_map.1 p3
        have hle3 := hlt r2 hr2
        refine ⟨by omega, by omega, fun hn => ?_⟩
        exact hnp ⟨hn.1, by omega⟩
  · intro hall
    obtain ⟨r2, hr2, e2⟩ := List.mem_map.1 p3
    obtain ⟨q1, q2, q3⟩ := hall r2 hr2
    rw [e2] at q1 q2 q3
    rw [if_neg (by omega), if_neg q3] at c2
    injection c2 with c2
    rw [← c2]
    have q2 : ¬p.key + p.count - 1 ≥ doneBelow s.next trk := by omega
    cases trk <;> exact decide_eq_true q2

theorem client_idx (hd : Hdr) (ps : List SPer) : (clientRows hd ps).map (·.idx) = (ps.flatMap SPer.segs).map (·.idx) := by
  have hs : ∀ (l : List SPer) (d : Nat), (srows d l).map (·.1) = (l.flatMap SPer.segs).map (·.idx) := by
    intro l
    induction l with
    | nil => intro d; rfl
    | cons p l ih => intro d; rw [srows, List.map_append, ih, List.flatMap_cons, List.map_append, List.map_map]; rfl
  unfold clientRows
  rw [numbered_idx, hs]

/-- **C48.** A response that announces the end of such a timeline has the whole playlist, with the durations that the segments keep. -/
theorem end_list_final {mono : Bool} {s : Ch} {H : List Seg} (hr : Reach mono s H) {t : Tl} (ht : t ∈ s.tls) (hc : 0 < t.man.segCount)
    (he : t.man.conf.endList = 1) {sd : Nat} {trk : Option Trk} {max : Nat} {hd : Hdr} {ps : List SPer} (h : serve s t sd trk max = .ok (hd, ps))
    (hE : hd.endList = true) : clientRows hd ps = playlist t ∧ ∀ p ∈ ps, ∀ g ∈ p.segs, Final mono s H g := by
  have hall := (end_list_iff hr ht hc he h).1 hE
  have hI := reach_inv hr
  obtain ⟨a, b, c1, c2, _, _, _, _, c3, _⟩ := serve_spec hI ht hc sd trk max
  rw [h] at c1
  injection c1 with c1
  injection c1 with ea eb
  subst ea eb
  have hrows : clientRows hd ps = playlist t := by
    rw [c2, List.filter_eq_self]
    exact fun r hr' => decide_eq_true (hall r hr').1
  refine ⟨hrows, fun p hp g hg => ?_⟩
  obtain ⟨k, hk, e⟩ := c3 p hp g hg
  have hidx : g.idx = k.idx := by rw [e]; unfold mask; split <;> rfl
  have hm : g.idx ∈ (playlist t).map (·.idx) := by
    rw [← hrows, client_idx]
    exact List.mem_map.2 ⟨g, List.mem_flatMap.2 ⟨p, hp, hg⟩, rfl⟩
  obtain ⟨r, hr', er⟩ := List.mem_map.1 hm
  obtain ⟨q1, q2, q3⟩ := hall r hr'
  have hgk : g = k := by
    rw [e]
    unfold mask
    rw [if_neg]
    rintro ⟨e1, e2⟩
    unfold pendingOn at e2
    unfold doneBelow at q2
    cases trk with
    | none => exact nomatch e2
    | some x =>
      have := of_decide_eq_true (Bool.and_eq_true_iff.1 e2).2
      dsimp only at q2
      omega
  rw [hgk]
  exact final_of hr hk (by rw [← hidx, ← er]; exact q3)

end Verif.Timeline
