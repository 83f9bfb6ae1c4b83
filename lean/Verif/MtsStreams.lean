import Verif.MtsProps

/-! # What the tracks of a segment are to a player -/

namespace Verif.Mts

open TsSpec (Packet Pes)
open MtsSpec (pidOf ofPid Sample Samples Coded Carried Codec Consecutive counters)

/-! ## The counters -/

theorem counter_bytes (q : Packet) (h : q.cont < 16) : (q.bytes.getD 3 0).toNat % 16 = q.cont := by
  unfold Packet.bytes
  simp only [List.cons_append, List.nil_append, List.getD_cons_succ, List.getD_cons_zero, UInt8.toNat_ofNat']
  split <;> split <;> omega

theorem counter_filler (pid cc : Nat) : ((MtsSpec.filler pid cc).getD 3 0).toNat % 16 = cc % 16 := by
  unfold MtsSpec.filler
  simp only [List.cons_append, List.nil_append, List.getD_cons_succ, List.getD_cons_zero, UInt8.toNat_ofNat']
  omega

theorem consecutive_nil (c : Nat) : Consecutive c [] := rfl

theorem consecutive_cons (c : Nat) (p : List UInt8) (ps : List (List UInt8)) : Consecutive c (p :: ps) ↔ (p.getD 3 0).toNat % 16 = c % 16 ∧ Consecutive (c + 1) ps := by
  unfold Consecutive counters
  rw [List.length_cons, List.range_succ_eq_map, List.map_cons, List.map_cons, List.map_map, List.cons_eq_cons]
  have : (List.range ps.length).map ((fun k => (c + k) % 16) ∘ Nat.succ) = (List.range ps.length).map fun k => (c + 1 + k) % 16 :=
    List.map_congr_left fun k _ => by show (c + (k + 1)) % 16 = _; rw [show c + (k + 1) = c + 1 + k by omega]
  rw [this]; rfl

theorem consecutive_append (c : Nat) (a b : List (List UInt8)) : Consecutive c (a ++ b) ↔ Consecutive c a ∧ Consecutive (c + a.length) b := by
  induction a generalizing c with
  | nil => simp [consecutive_nil]
  | cons p a ih =>
    rw [List.cons_append, consecutive_cons, ih, consecutive_cons, List.length_cons, show c + 1 + a.length = c + (a.length + 1) by omega, and_assoc]

theorem consecutive_mod (c : Nat) (a : List (List UInt8)) : Consecutive (c % 16) a ↔ Consecutive c a := by
  induction a generalizing c with
  | nil => exact ⟨fun _ => rfl, fun _ => rfl⟩
  | cons p a ih =>
    rw [consecutive_cons, consecutive_cons, ← ih (c % 16 + 1), ← ih (c + 1), show (c % 16 + 1) % 16 = (c + 1) % 16 by omega, Nat.mod_mod]

theorem counted_consecutive (c : Nat) (qs : List Packet) (h : TsSpec.Counted (c % 16) qs) (hq : ∀ q ∈ qs, q.cont < 16) : Consecutive c (qs.map Packet.bytes) := by
  induction qs generalizing c with
  | nil => rfl
  | cons q qs ih =>
    rw [List.map_cons, consecutive_cons]
    refine ⟨by rw [counter_bytes q (hq q (by simp))]; exact h.1, ih (c + 1) ?_ (fun x hx => hq x (by simp [hx]))⟩
    have := h.2
    rwa [show (c % 16 + 1) % 16 = (c + 1) % 16 by omega] at this

theorem fillers_consecutive (pid cc n : Nat) : Consecutive cc ((List.range n).map fun k => MtsSpec.filler pid (cc + k)) := by
  unfold Consecutive counters
  rw [List.map_map, List.length_map, List.length_range]
  exact List.map_congr_left fun k _ => counter_filler pid (cc + k)

theorem carried_consecutive {video single pcr : Bool} {pid sid cc : Nat} {samples : List Sample} {n : Nat} {groups : List (List Sample)}
    {us : List (Pes × List Packet)} {ps : List (List UInt8)} (h : Carried video single pcr pid sid cc samples n groups us ps) : Consecutive cc ps := by
  rw [h.bytes, consecutive_append]
  refine ⟨counted_consecutive cc _ h.counted ?_, ?_⟩
  · intro q hq
    obtain ⟨u, hu, hqu⟩ := List.mem_flatMap.mp hq
    exact ((h.carries u hu).2.2 q hqu).1.cont
  · rw [List.length_map]
    exact fillers_consecutive pid _ n

/-- **C85**. -/
theorem counters_continue (ss : List Src) (hp : (ss.map Src.pid).Nodup) (h : ∀ s ∈ ss, s.Ok) :
    ∃ ps, segment true (ss.map Src.track) = .ok ps ∧ ∀ s ∈ ss, Consecutive s.first (ofPid s.pid ps) ∧
      (s.codec ≠ .id3 → (ofPid s.pid ps).length % 16 = 0) := by
  obtain ⟨ps, h1, -, h3⟩ := segment_carries ss hp h
  refine ⟨ps, h1, fun s hs => ?_⟩
  obtain ⟨samples, groups, us, c1, c2⟩ := h3 s hs
  refine ⟨carried_consecutive c2, fun hid => ?_⟩
  have hb := congrArg List.length c2.bytes
  rw [List.length_append, List.length_map, List.length_map, List.length_range] at hb
  rw [hb]
  by_cases hf : s.frames = []
  · have hs0 : samples = [] := by
      rw [hf] at c1
      cases samples with
      | nil => rfl
      | cons _ _ => exact c1.elim
    have hg : groups = [] := by
      cases groups with
      | nil => rfl
      | cons g gs =>
        have := c2.all
        rw [hs0, List.flatten_cons] at this
        exact absurd (List.append_eq_nil_iff.mp this).1 (c2.parts g (by simp)).1
    have hu : us = [] := by
      have := c2.pes
      rw [hg] at this
      exact List.map_eq_nil_iff.mp this
    rw [hu]
    simp [Src.fillers, hf]
  · unfold Src.fillers
    rw [if_pos ⟨hf, hid⟩]; omega

/-- Segments of the same tracks, one after another: the counters go on, for all pids but those of ID3. -/
theorem segments_continue_partial (ss ss' : List Src) (hp : (ss.map Src.pid).Nodup) (h : ∀ s ∈ ss, s.Ok) (hp' : (ss'.map Src.pid).Nodup) (h' : ∀ s ∈ ss', s.Ok) :
    ∃ ps ps', segment true (ss.map Src.track) = .ok ps ∧ segment true (ss'.map Src.track) = .ok ps' ∧
      ∀ s ∈ ss, ∀ s' ∈ ss', s.pid = s'.pid → s.codec ≠ .id3 → s'.codec ≠ .id3 → Consecutive 0 (ofPid s.pid (ps ++ ps')) := by
  obtain ⟨ps, h1, h2⟩ := counters_continue ss hp h
  obtain ⟨ps', h3, h4⟩ := counters_continue ss' hp' h'
  refine ⟨ps, ps', h1, h3, fun s hs s' hs' hpid hid hid' => ?_⟩
  have hz : ∀ x : Src, x.codec ≠ .id3 → x.first = 0 := by
    intro x hx
    unfold Src.first
    cases hc : x.codec with
    | id3 => exact absurd hc hx
    | _ => rfl
  obtain ⟨a1, a2⟩ := h2 s hs
  obtain ⟨b1, -⟩ := h4 s' hs'
  rw [hz s hid] at a1
  rw [hz s' hid', ← hpid] at b1
  rw [ofPid_append, consecutive_append]
  refine ⟨a1, ?_⟩
  rw [← consecutive_mod, Nat.zero_add, a2 hid]
  exact b1

/-! ## Video -/

theorem singles {groups : List (List Sample)} (h : ∀ g ∈ groups, g ≠ [] ∧ g.length = 1) : groups = groups.flatten.map fun x => [x] := by
  induction groups with
  | nil => rfl
  | cons g gs ih =>
    obtain ⟨x, rfl⟩ := List.length_eq_one_iff.mp (h g (by simp)).2
    rw [List.flatten_cons, List.map_append, ← ih (fun y hy => h y (by simp [hy]))]
    rfl

/-- **C82**. -/
theorem video_pes (ss : List Src) (hp : (ss.map Src.pid).Nodup) (h : ∀ s ∈ ss, s.Ok) :
    ∃ ps, segment true (ss.map Src.track) = .ok ps ∧ ∀ s ∈ ss, s.video = true →
      ∃ (samples : List Sample) (us : List (Pes × List Packet)) (n : Nat), Samples s.codec s.time (s.frames.map InFrame.spec) samples ∧
        us.map Prod.fst = samples.map (fun x => MtsSpec.pes true s.sid x.pts x.dts x.data) ∧
        (∀ u ∈ us, u.1.Ok ∧ TsSpec.Carries u.1 u.2 ∧ ∀ q ∈ u.2, q.Ok ∧ q.pid = s.pid) ∧
        ofPid s.pid ps = (us.flatMap Prod.snd).map Packet.bytes ++ (List.range n).map fun k => MtsSpec.filler s.pid ((us.flatMap Prod.snd).length + k) := by
  obtain ⟨ps, h1, -, h3⟩ := segment_carries ss hp h
  refine ⟨ps, h1, fun s hs hv => ?_⟩
  obtain ⟨samples, groups, us, c1, c2⟩ := h3 s hs
  have hna : s.audio = false := by
    unfold Src.video at hv
    unfold Src.audio
    cases hc : s.codec with
    | video _ _ _ => rfl
    | _ => first | rfl | (rw [hc] at hv; cases hv)
  have hfirst : s.first = 0 := by
    unfold Src.video at hv
    unfold Src.first
    cases hc : s.codec with
    | video _ _ _ => rfl
    | _ => first | rfl | (rw [hc] at hv; cases hv)
  have hg : groups = samples.map fun x => [x] := by
    rw [← c2.all]
    exact singles fun g hg => ⟨(c2.parts g hg).1, (c2.parts g hg).2 (by rw [hna]; rfl)⟩
  refine ⟨samples, us, s.fillers (us.flatMap Prod.snd).length, c1, ?_, c2.carries, ?_⟩
  · rw [c2.pes, hg, List.map_map, hv]
    exact List.map_congr_left fun x _ => by simp [MtsSpec.groupPes]
  · have := c2.bytes
    rw [hfirst] at this
    simpa using this

/-! ## Audio -/

theorem groups_payload (video : Bool) (sid : Nat) (groups : List (List Sample)) :
    ((groups.map (MtsSpec.groupPes video sid)).map Pes.payload).flatten = (groups.flatten.map Sample.data).flatten := by
  induction groups with
  | nil => rfl
  | cons g gs ih =>
    rw [List.map_cons, List.map_cons, List.flatten_cons, ih, List.flatten_cons, List.map_append, List.flatten_append]; rfl

theorem samples_data (c : Codec) (d : List UInt8 → List UInt8) (hd : ∀ key data out, Coded c key data out → out = d data) (t : Nat) (fs : List MtsSpec.Frame)
    (ss : List Sample) (h : Samples c t fs ss) : ss.map Sample.data = fs.map fun f => d f.data := by
  induction fs generalizing t ss with
  | nil =>
    cases ss with
    | nil => rfl
    | cons _ _ => exact h.elim
  | cons f fs ih =>
    cases ss with
    | nil => exact h.elim
    | cons x ss =>
      obtain ⟨-, -, h3, h4⟩ := h
      rw [List.map_cons, List.map_cons, ih _ _ h4, hd _ _ _ h3]

/-- **C83**. -/
theorem audio_stream (ss : List Src) (hp : (ss.map Src.pid).Nodup) (h : ∀ s ∈ ss, s.Ok) :
    ∃ ps, segment true (ss.map Src.track) = .ok ps ∧ ∀ s ∈ ss, ∀ o r c, s.codec = .aac o r c →
      ∃ (groups : List (List InFrame)) (us : List (Pes × List Packet)) (n : Nat), groups.flatten = s.frames ∧ (∀ g ∈ groups, g ≠ []) ∧
        us.map (fun u => u.1.payload) = groups.map (fun g => (g.map fun f => (MtsSpec.adts o r c f.data).bytes).flatten) ∧
        (∀ u ∈ us, u.1.Ok ∧ TsSpec.Carries u.1 u.2 ∧ ∀ q ∈ u.2, q.Ok ∧ q.pid = s.pid) ∧
        ofPid s.pid ps = (us.flatMap Prod.snd).map Packet.bytes ++ (List.range n).map fun k => MtsSpec.filler s.pid ((us.flatMap Prod.snd).length + k) := by
  obtain ⟨ps, h1, -, h3⟩ := segment_carries ss hp h
  refine ⟨ps, h1, fun s hs o r c hc => ?_⟩
  obtain ⟨samples, groups, us, c1, c2⟩ := h3 s hs
  have hdata := samples_data s.codec (fun d => (MtsSpec.adts o r c d).bytes) (by rw [hc]; exact fun _ _ _ hh => hh) _ _ _ c1
  have hfirst : s.first = 0 := by unfold Src.first; rw [hc]
  have hall := c2.all
  have hsplit : ∀ (gs : List (List Sample)) (fs : List InFrame), gs.flatten.map Sample.data = (fs.map InFrame.spec).map (fun f => (MtsSpec.adts o r c f.data).bytes) →
      (∀ g ∈ gs, g ≠ []) → ∃ gf : List (List InFrame), gf.flatten = fs ∧ (∀ g ∈ gf, g ≠ []) ∧
        gs.map (fun g => (g.map Sample.data).flatten) = gf.map (fun g => (g.map fun f => (MtsSpec.adts o r c f.data).bytes).flatten) := by
    intro gs
    induction gs with
    | nil =>
      intro fs hfs _
      have : fs = [] := by
        cases fs with
        | nil => rfl
        | cons _ _ => cases hfs
      exact ⟨[], this.symm, by simp, rfl⟩
    | cons g gs ih =>
      intro fs hfs hne
      rw [List.flatten_cons, List.map_append, List.map_map] at hfs
      obtain ⟨f1, f2, rfl, e1, e2⟩ := List.map_eq_append_iff.mp hfs.symm
      obtain ⟨gf, q1, q2, q3⟩ := ih f2 (by rw [List.map_map]; exact e2.symm) (fun x hx => hne x (by simp [hx]))
      refine ⟨f1 :: gf, by rw [List.flatten_cons, q1], ?_, ?_⟩
      · intro x hx
        rcases List.mem_cons.mp hx with rfl | hx
        · rintro rfl
          exact hne g (by simp) (List.map_eq_nil_iff.mp e1.symm)
        · exact q2 x hx
      · rw [List.map_cons, List.map_cons, q3, ← e1]; rfl
  obtain ⟨gf, g1, g2, g3⟩ := hsplit groups s.frames (by rw [hall, hdata]) (fun g hg => (c2.parts g hg).1)
  refine ⟨gf, us, s.fillers (us.flatMap Prod.snd).length, g1, g2, ?_, c2.carries, ?_⟩
  · rw [← g3]
    have : us.map (fun u => u.1.payload) = (us.map Prod.fst).map Pes.payload := by rw [List.map_map]; rfl
    rw [this, c2.pes, List.map_map]; rfl
  · have := c2.bytes
    rw [hfirst] at this
    simpa using this

end Verif.Mts
