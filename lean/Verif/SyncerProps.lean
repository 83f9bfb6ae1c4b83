import Verif.SyncerSpec

/-!
# The syncer: times follow the clock
-/

namespace Verif.Syncer

open Verif.SyncerSpec

theorem chk_ok {x y : Int} (h : chk x = .ok y) : y = x ∧ -2 ^ 63 ≤ x ∧ x < 2 ^ 63 := by
  unfold chk at h
  split at h
  · rename_i hx; cases h; exact ⟨rfl, hx⟩
  · cases h

theorem bind_ok_iff {α β : Type} {x : Res α} {f : α → Res β} {b : β} (h : (x >>= f) = .ok b) : ∃ a, x = .ok a ∧ f a = .ok b := by
  cases x with
  | ok a => exact ⟨a, rfl, h⟩
  | err => cases h
  | ub => cases h

theorem map_ok_iff {α β : Type} {x : Res α} {f : α → β} {b : β} (h : x.map f = .ok b) : ∃ a, x = .ok a ∧ b = f a := by
  cases x with
  | ok a => cases h; exact ⟨a, rfl, rfl⟩
  | err => cases h
  | ub => cases h

/-- Tracks that only differ in what they are forced to. -/
def Alike (t u : Trk) : Prop := u = { t with force := u.force }

theorem Alike.refl (t : Trk) : Alike t t := rfl

theorem Alike.force (t : Trk) (n : Nat) : Alike t { t with force := n } := rfl

theorem forceOthers_get {i n j : Nat} {l : List Trk} : (forceOthers i n l)[j]? = (l[j]?).map fun t => if j = i then t else { t with force := n } := by
  unfold forceOthers
  rw [List.getElem?_mapIdx]

/-- Others stay, but for what they are forced to. -/
def Others (_i : Nat) (l m : List Trk) : Prop := m.length = l.length ∧ ∀ (j : Nat) (t : Trk), l[j]? = some t → ∃ u, m[j]? = some u ∧ Alike t u

theorem Others.refl (i : Nat) (l : List Trk) : Others i l l := ⟨rfl, fun _ t h => ⟨t, h, rfl⟩⟩

theorem forceOthers_others (i n : Nat) (l : List Trk) : Others i l (forceOthers i n l) := by
  refine ⟨by simp [forceOthers], fun j t h => ?_⟩
  rw [forceOthers_get, h]
  by_cases e : j = i
  · exact ⟨t, by simp [e], rfl⟩
  · exact ⟨{ t with force := n }, by simp [e], rfl⟩

theorem syncTrack_ok {c : Conf} {ch ch' : Chan} {i : Nat} {t t' : Trk} {pts created : Int} {id n : Nat} {min : Int} (h : syncTrack c ch i t pts created id n min = .ok (ch', t')) :
    t'.video = t.video ∧ Others i ch.tracks ch'.tracks ∧ min ≤ t'.corr ∧ -2 ^ 63 ≤ created - pts ∧
      (t'.corr - (if created - pts < min then min else created - pts)).natAbs ≤ c.reuse * c.timescale := by
  unfold syncTrack at h
  obtain ⟨tc0, h0, h⟩ := bind_ok_iff h
  obtain ⟨e0, h1, h2⟩ := chk_ok h0
  subst e0
  simp only [] at h
  obtain ⟨tc, htc⟩ : ∃ tc, tc = if created - pts < min then min else created - pts := ⟨_, rfl⟩
  rw [← htc] at h ⊢
  have hmin : min ≤ tc := by rw [htc]; split <;> omega
  obtain ⟨d, hd, h⟩ := bind_ok_iff h
  split at h
  · cases h
  obtain ⟨e, he, h⟩ := bind_ok_iff h
  obtain ⟨ee, -, -⟩ := chk_ok he
  subst ee
  obtain ⟨a, ha, h⟩ := bind_ok_iff h
  obtain ⟨ea, -, -⟩ := chk_ok ha
  subst ea
  have hv : (if created - pts < min then { t with force := 0 } else t).video = t.video := by split <;> rfl
  split at h
  · rename_i hc
    simp only [Res.ok.injEq, addLog, Prod.mk.injEq] at h
    obtain ⟨rfl, rfl⟩ := h
    refine ⟨hv, Others.refl _ _, hc.2, h1, ?_⟩
    have := hc.1
    show Int.natAbs (s64 (ch.corr + roundTo d c.wrap) - tc) ≤ _
    omega
  · simp only [Res.ok.injEq, addLog, Prod.mk.injEq] at h
    obtain ⟨rfl, rfl⟩ := h
    refine ⟨hv, ?_, hmin, h1, by simp⟩
    simp only []
    have hif : ∀ (p : Prop) [Decidable p], Others i ch.tracks (if p then forceOthers i n ch.tracks else ch.tracks) := by
      intro p _
      split
      · exact forceOthers_others _ _ _
      · exact Others.refl _ _
    exact hif _

theorem inter_iff {video : Bool} {f : Frame} : inter video f = true ↔ ¬ starts video f := by
  unfold inter starts
  rw [Nat.testBit_zero, Nat.and_one_is_mod]
  cases video
  · simp
  · simp

/-- What the state says of the frame before. -/
def Rel (t : Trk) : Past → Prop
  | .unknown => True
  | .fresh => t.lastPts = inv
  | .last a a' => t.lastPts = pts t.video a ∧ t.lastOut = a'.dts ∧ t.corr = a'.dts - a.dts

theorem Rel.alike {t u : Trk} {p : Past} (h : Rel t p) (a : Alike t u) : Rel u p := by
  rw [a]
  cases p <;> exact h

theorem bit16 (n : Nat) : (n ||| 16).testBit 4 = true := by
  rw [Nat.testBit_or]
  have : Nat.testBit 16 4 = true := by decide
  rw [this, Bool.or_true]

theorem mulmax (a b t : Nat) : max a b * t = max (a * t) (b * t) := by
  by_cases h : a ≤ b
  · rw [Nat.max_eq_right h, Nat.max_eq_right (Nat.mul_le_mul_right t h)]
  · rw [Nat.max_eq_left (by omega), Nat.max_eq_left (Nat.mul_le_mul_right t (by omega))]

/-- Before the frame is taken, a track may have a smaller number of frames to wait. -/
def ready (t : Trk) : Trk := if t.force > 1 then { t with force := t.force - 1 } else t

theorem ready_alike (t : Trk) : Alike t (ready t) := by
  unfold ready
  split
  · exact Alike.force t _
  · exact Alike.refl t

/-- How `perform` ends. -/
theorem perform_ok {c : Conf} {ch ch' : Chan} {i : Nat} {t t' : Trk} {p : Int} {f f' : Frame} {a : Act} (h : perform c ch i t p f a = .ok (ch', t', f')) :
    t'.video = t.video ∧ Others i ch.tracks ch'.tracks ∧
      match a with
      | .none => f' = f ∧ t'.corr = t.corr
      | .jump min => f' = f ∧ min ≤ t'.corr ∧ (t'.corr - (if f.created - p < min then min else f.created - p)).natAbs ≤ c.reuse * c.timescale
      | .sync _ => f' = { f with flags := f.flags ||| 16 } ∧ (t'.corr - (f.created - p)).natAbs ≤ c.reuse * c.timescale := by
  cases a with
  | none =>
    simp only [perform, Res.ok.injEq, Prod.mk.injEq] at h
    obtain ⟨rfl, rfl, rfl⟩ := h
    exact ⟨rfl, Others.refl _ _, rfl, rfl⟩
  | jump min =>
    obtain ⟨x, hx, he⟩ := map_ok_iff h
    simp only [Prod.mk.injEq] at he
    obtain ⟨rfl, rfl, rfl⟩ := he
    obtain ⟨s1, s2, s3, -, s5⟩ := syncTrack_ok (ch' := x.1) (t' := x.2) hx
    exact ⟨s1, s2, rfl, s3, s5⟩
  | sync n =>
    obtain ⟨x, hx, he⟩ := map_ok_iff h
    simp only [Prod.mk.injEq] at he
    obtain ⟨rfl, rfl, rfl⟩ := he
    obtain ⟨s1, s2, s3, s4, s5⟩ := syncTrack_ok (ch' := x.1) (t' := x.2) hx
    rw [if_neg (by omega)] at s5
    exact ⟨s1, s2, rfl, s5⟩

theorem getPts_ok {video : Bool} {f : Frame} {p : Int} (h : getPts video f = .ok p) : p = pts video f := by
  unfold getPts at h
  unfold pts
  split at h
  · rename_i hv
    rw [if_pos hv]
    exact (chk_ok h).1
  · rename_i hv
    cases h
    rw [if_neg hv]

theorem addFrame_ok {c : Conf} {ch ch' : Chan} {i : Nat} {t : Trk} {f f' : Frame} {q : Past} (ht : ch.tracks[i]? = some t) (hq : Rel t q) (h : addFrame c ch i t f = .ok (ch', f')) :
    Kept t.video f f' ∧ OnTime c t.video f f' ∧ Rule c t.video f f' q ∧ (∃ u, ch'.tracks[i]? = some u ∧ u.video = t.video ∧ Rel u (.last f f')) ∧
      ∀ (j : Nat) (t : Trk), j ≠ i → ch.tracks[j]? = some t → ∃ u, ch'.tracks[j]? = some u ∧ Alike t u := by
  unfold addFrame at h
  simp only [] at h
  have hr : Rel (ready t) q := hq.alike (ready_alike t)
  have hv : (ready t).video = t.video := by rw [ready_alike t]
  obtain ⟨r, hre⟩ : ∃ r, r = ready t := ⟨_, rfl⟩
  rw [← show ready t = if t.force > 1 then { t with force := t.force - 1 } else t from rfl] at h
  rw [← hre] at h hr hv
  rw [← hv]
  clear hre hq
  obtain ⟨p, hp, h⟩ := bind_ok_iff h
  have hp := getPts_ok hp
  obtain ⟨a, ha, h⟩ := bind_ok_iff h
  obtain ⟨⟨ch1, t1, f1⟩, hx, h⟩ := bind_ok_iff h
  obtain ⟨p1, p2, p3⟩ := perform_ok hx
  obtain ⟨d, hd, h⟩ := bind_ok_iff h
  obtain ⟨hd, -, -⟩ := chk_ok hd
  simp only [Res.ok.injEq, Prod.mk.injEq] at h
  obtain ⟨rfl, rfl⟩ := h
  have hi : i < ch1.tracks.length := by
    rw [p2.1]
    exact (List.getElem?_eq_some_iff.1 ht).1
  simp only [] at hd
  have hothers : ∀ (j : Nat) (t : Trk), j ≠ i → ch.tracks[j]? = some t →
      ∃ u, (ch1.tracks.set i { t1 with lastPts := p, lastOut := d })[j]? = some u ∧ Alike t u := by
    intro j t hj hjt
    rw [List.getElem?_set_ne (Ne.symm hj)]
    exact p2.2 j t hjt
  have hself : ∀ g : Frame, g.dts = f.dts → f1 = g → d - f.dts = t1.corr → ∃ u, (ch1.tracks.set i { t1 with lastPts := p, lastOut := d })[i]? = some u ∧ u.video = r.video ∧
      Rel u (.last f { f1 with dts := d }) := by
    intro g hg hf1 hdd
    refine ⟨_, List.getElem?_set_self hi, p1, ?_, rfl, by show t1.corr = d - f.dts; omega⟩
    show p = pts t1.video f
    rw [p1, hp]
  by_cases hst : starts r.video f
  · -- a key frame or audio
    have hin : ¬ inter r.video f = true := by rw [inter_iff]; exact fun hh => hh hst
    rw [if_neg hin] at ha
    unfold keyAct at ha
    cases a with
    | jump m =>
      exfalso
      split at ha
      · cases ha
      split at ha
      · cases ha
      obtain ⟨_, _, ha⟩ := bind_ok_iff ha
      obtain ⟨_, _, ha⟩ := bind_ok_iff ha
      split at ha
      · cases ha
      obtain ⟨_, _, ha⟩ := bind_ok_iff ha
      split at ha <;> cases ha
    | sync n =>
      obtain ⟨rfl, p4⟩ := p3
      simp only [] at hd
      have hpts : pts r.video { ({ f with flags := f.flags ||| 16 } : Frame) with dts := d } = p + t1.corr := by
        rw [hp, hd]
        unfold pts
        split <;> simp only [] <;> omega
      refine ⟨⟨rfl, rfl, rfl, Or.inr ⟨hst, rfl⟩⟩, fun _ => ?_, ?_, hself { f with flags := f.flags ||| 16 } rfl rfl (by omega), hothers⟩
      · rw [hpts, mulmax, mulmax]
        have := Nat.le_max_right (c.back * c.timescale) (c.reuse * c.timescale)
        have := Nat.le_max_right (c.fwd * c.timescale) (c.reuse * c.timescale)
        constructor <;> omega
      · cases q with
        | fresh => exact fun _ => rfl
        | unknown => trivial
        | last b b' =>
          refine ⟨fun hh => ?_, fun hj => absurd hst hj.1⟩
          rw [bit16] at hh
          cases hh
    | none =>
      obtain ⟨rfl, p4⟩ := p3
      have hpts : pts r.video { f1 with dts := d } = p + r.corr := by
        rw [hp, hd, p4]
        unfold pts
        split <;> simp only [] <;> omega
      split at ha
      · cases ha
      split at ha
      · cases ha
      rename_i hlast
      obtain ⟨x, hx, ha⟩ := bind_ok_iff ha
      obtain ⟨rfl, -, -⟩ := chk_ok hx
      obtain ⟨y, hy, ha⟩ := bind_ok_iff ha
      obtain ⟨rfl, -, -⟩ := chk_ok hy
      split at ha
      · cases ha
      obtain ⟨z, hz, ha⟩ := bind_ok_iff ha
      obtain ⟨rfl, -, -⟩ := chk_ok hz
      split at ha
      · cases ha
      refine ⟨⟨rfl, rfl, rfl, Or.inl rfl⟩, fun _ => ?_, ?_, hself _ rfl rfl (by omega), hothers⟩
      · rw [hpts, mulmax, mulmax]
        have := Nat.le_max_left (c.back * c.timescale) (c.reuse * c.timescale)
        have := Nat.le_max_left (c.fwd * c.timescale) (c.reuse * c.timescale)
        constructor <;> omega
      · cases q with
        | fresh => exact absurd hr hlast
        | unknown => trivial
        | last b b' =>
          refine ⟨fun _ _ => ?_, fun hj => absurd hst hj.1⟩
          show d - f1.dts = _
          rw [← hr.2.2]
          omega
  · have hin : inter r.video f = true := inter_iff.2 hst
    rw [if_pos hin] at ha
    unfold interAct at ha
    obtain ⟨diff, hdiff, ha⟩ := bind_ok_iff ha
    obtain ⟨hdiff, -, -⟩ := chk_ok hdiff
    have hdn : diff = ((p - r.lastPts).natAbs : Int) := by
      rw [hdiff]
      split <;> omega
    clear hdiff
    cases a with
    | sync n =>
      exfalso
      split at ha
      · cases ha
      split at ha
      · cases ha
      split at ha
      · obtain ⟨_, _, ha⟩ := bind_ok_iff ha
        obtain ⟨_, _, ha⟩ := bind_ok_iff ha
        cases ha
      · cases ha
    | none =>
      obtain ⟨rfl, p4⟩ := p3
      refine ⟨⟨rfl, rfl, rfl, Or.inl rfl⟩, fun hh => absurd hh hst, ?_, hself _ rfl rfl (by omega), hothers⟩
      cases q with
      | fresh => exact fun hh => absurd hh hst
      | unknown => trivial
      | last b b' =>
        refine ⟨fun _ _ => ?_, fun hj hb hb' => ?_⟩
        · show d - f1.dts = _
          rw [← hr.2.2]
          omega
        · exfalso
          have hj2 := hj.2
          rw [mulmax, ← hp, ← hr.1, ← hdn] at hj2
          have := Nat.le_max_left (c.jumpLog * c.timescale) (c.jump * c.timescale)
          have := Nat.le_max_right (c.jumpLog * c.timescale) (c.jump * c.timescale)
          split at ha
          · rename_i hc
            rcases hc with hc | hc
            · omega
            · rw [hr.1] at hc
              unfold inv at hc
              omega
          split at ha
          · omega
          split at ha
          · obtain ⟨_, _, ha⟩ := bind_ok_iff ha
            obtain ⟨_, _, ha⟩ := bind_ok_iff ha
            cases ha
          · cases ha
    | jump m =>
      obtain ⟨rfl, p4, p5⟩ := p3
      refine ⟨⟨rfl, rfl, rfl, Or.inl rfl⟩, fun hh => absurd hh hst, ?_, hself _ rfl rfl (by omega), hothers⟩
      have hpts : pts r.video { f1 with dts := d } = p + t1.corr := by
        rw [hp, hd]
        unfold pts
        split <;> simp only [] <;> omega
      cases q with
      | fresh => exact fun hh => absurd hh hst
      | unknown => trivial
      | last b b' =>
        split at ha
        · cases ha
        rename_i hc1
        split at ha
        · cases ha
        rename_i hc2
        refine ⟨fun _ hj => ?_, fun hj hb hb' => ?_⟩
        · exfalso
          apply hj
          refine ⟨hst, ?_⟩
          rw [mulmax, ← hp, ← hr.1, ← hdn]
          have e1 : ¬ diff ≤ ((c.jumpLog * c.timescale : Nat) : Int) := fun hh => hc1 (Or.inl hh)
          rcases Nat.le_total (c.jumpLog * c.timescale) (c.jump * c.timescale) with h | h
          · rw [Nat.max_eq_right h]; omega
          · rw [Nat.max_eq_left h]; omega
        · rw [hpts]
          rw [hr.2.1] at ha
          rw [if_pos (by unfold inv; omega)] at ha
          obtain ⟨x, hx, ha⟩ := bind_ok_iff ha
          obtain ⟨rfl, -, -⟩ := chk_ok hx
          obtain ⟨y, hy, ha⟩ := bind_ok_iff ha
          obtain ⟨rfl, -, -⟩ := chk_ok hy
          simp only [Res.ok.injEq, Act.jump.injEq] at ha
          subst ha
          show b'.dts < d ∧ (_ ∨ d ≤ _)
          refine ⟨by omega, ?_⟩
          split at p5
          · right
            omega
          · left
            omega

/-- What the state says of a track, if it is there. -/
def RelAt (ch : Chan) (i : Nat) (q : Past) : Prop := ∀ t, ch.tracks[i]? = some t → Rel t q

theorem story_append (i : Nat) (a b : List (Nat × Seen)) : story i (a ++ b) = story i a ++ story i b := by
  simp [story]

theorem addFrame_length {c : Conf} {ch : Chan} {i : Nat} {t : Trk} {f : Frame} {x : Chan × Frame} (h : addFrame c ch i t f = .ok x) : x.1.tracks.length = ch.tracks.length := by
  unfold addFrame at h
  simp only [] at h
  obtain ⟨p, hp, h⟩ := bind_ok_iff h
  obtain ⟨a, ha, h⟩ := bind_ok_iff h
  obtain ⟨⟨ch1, t1, f1⟩, hx, h⟩ := bind_ok_iff h
  obtain ⟨p1, p2, p3⟩ := perform_ok hx
  obtain ⟨d, hd, h⟩ := bind_ok_iff h
  simp only [Res.ok.injEq] at h
  subst h
  rw [List.length_set]
  exact p2.1

theorem step_follow {c : Conf} {ch ch' : Chan} {e : Ev} {s : List (Nat × Seen)} {i : Nat} {q : Past} (h : step c ch e = .ok (ch', s)) (hq : RelAt ch i q) :
    ∃ q', RelAt ch' i q' ∧ ∀ l, Follows c q' l → Follows c q (story i s ++ l) := by
  cases e with
  | add video =>
    simp only [step, Res.ok.injEq, Prod.mk.injEq] at h
    obtain ⟨rfl, rfl⟩ := h
    by_cases hi : i = ch.tracks.length
    · subst hi
      refine ⟨.fresh, fun t ht => ?_, fun l hl => ?_⟩
      · simp only [List.getElem?_append_right (Nat.le_refl _), Nat.sub_self, List.getElem?_cons_zero, Option.some.injEq] at ht
        subst ht
        rfl
      · simpa [story, Follows] using hl
    · refine ⟨q, fun t ht => ?_, fun l hl => ?_⟩
      · by_cases hlt : i < ch.tracks.length
        · simp only [List.getElem?_append_left hlt] at ht
          exact hq t ht
        · simp only [List.getElem?_append_right (Nat.le_of_not_lt hlt)] at ht
          rw [List.getElem?_eq_none (by simp; omega)] at ht
          cases ht
      · have : story i [(ch.tracks.length, Seen.reset)] = [] := by simp [story, Ne.symm hi]
        rw [this]
        exact hl
  | frame j f =>
    unfold step at h
    simp only [] at h
    split at h
    · cases h
    rename_i t ht
    obtain ⟨x, hx, he⟩ := map_ok_iff h
    simp only [Prod.mk.injEq] at he
    obtain ⟨rfl, rfl⟩ := he
    by_cases hi : i = j
    · subst hi
      obtain ⟨a1, a2, a3, ⟨u, u1, -, u2⟩, -⟩ := addFrame_ok (ch' := x.1) (f' := x.2) ht (hq t ht) hx
      refine ⟨.last f x.2, fun t' ht' => ?_, fun l hl => ?_⟩
      · rw [u1] at ht'
        cases ht'
        exact u2
      · have : story i [(i, Seen.frame t.video f x.2)] = [.frame t.video f x.2] := by simp [story]
        rw [this]
        exact ⟨a1, a2, a3, hl⟩
    · obtain ⟨-, -, -, -, a5⟩ := addFrame_ok (ch' := x.1) (f' := x.2) (q := .unknown) ht trivial hx
      refine ⟨q, fun t' ht' => ?_, fun l hl => ?_⟩
      · cases hc : ch.tracks[i]? with
        | some u =>
          obtain ⟨w, w1, w2⟩ := a5 i u hi hc
          rw [ht'] at w1
          cases w1
          exact (hq u hc).alike w2
        | none =>
          exfalso
          have hlen : x.1.tracks.length = ch.tracks.length := addFrame_length hx
          rw [List.getElem?_eq_none_iff] at hc
          have := (List.getElem?_eq_some_iff.1 ht').1
          omega
      · have : story i [(j, Seen.frame t.video f x.2)] = [] := by simp [story, Ne.symm hi]
        rw [this]
        exact hl
  | inactive j =>
    unfold step at h
    simp only [] at h
    split at h
    · cases h
    rename_i t ht
    simp only [Res.ok.injEq, Prod.mk.injEq] at h
    obtain ⟨rfl, rfl⟩ := h
    by_cases hi : i = j
    · subst hi
      refine ⟨.fresh, fun t' ht' => ?_, fun l hl => ?_⟩
      · simp only [List.getElem?_set_self (List.getElem?_eq_some_iff.1 ht).1, Option.some.injEq] at ht'
        subst ht'
        rfl
      · simpa [story, Follows] using hl
    · refine ⟨q, fun t' ht' => ?_, fun l hl => ?_⟩
      · simp only [List.getElem?_set_ne (Ne.symm hi)] at ht'
        exact hq t' ht'
      · have : story i [(j, Seen.reset)] = [] := by simp [story, Ne.symm hi]
        rw [this]
        exact hl
  | reconnect j next p d =>
    unfold step at h
    simp only [] at h
    split at h
    · cases h
    rename_i t ht
    obtain ⟨x, hx, he⟩ := map_ok_iff h
    simp only [Prod.mk.injEq] at he
    obtain ⟨rfl, rfl⟩ := he
    by_cases hi : i = j
    · subst hi
      refine ⟨.unknown, fun _ _ => trivial, fun l hl => ?_⟩
      simpa [story, Follows] using hl
    · refine ⟨q, fun t' ht' => ?_, fun l hl => ?_⟩
      · simp only [List.getElem?_set_ne (Ne.symm hi)] at ht'
        exact hq t' ht'
      · have : story i [(j, Seen.back next)] = [] := by simp [story, Ne.symm hi]
        rw [this]
        exact hl

theorem run_follow {c : Conf} {evs : List Ev} : ∀ {ch ch' : Chan} {s : List (Nat × Seen)} {i : Nat} {q : Past}, run c ch evs = .ok (ch', s) → RelAt ch i q →
    Follows c q (story i s) := by
  induction evs with
  | nil =>
    intro ch ch' s i q h _
    simp only [run, Res.ok.injEq, Prod.mk.injEq] at h
    obtain ⟨rfl, rfl⟩ := h
    trivial
  | cons e l ih =>
    intro ch ch' s i q h hq
    unfold run at h
    obtain ⟨⟨ch1, s1⟩, h1, h⟩ := bind_ok_iff h
    obtain ⟨⟨ch2, s2⟩, h2, he⟩ := map_ok_iff h
    simp only [Prod.mk.injEq] at he
    obtain ⟨rfl, rfl⟩ := he
    obtain ⟨q', r1, r2⟩ := step_follow h1 hq
    rw [story_append]
    exact r2 _ (ih h2 r1)

/-- **C118**. The frames of each track of a channel, whatever comes in: a frame that starts a segment is shown near the time it was made; times are shifted together
unless the frame starts a split or the source was changed; frames after a change come after those before. -/
theorem follows {c : Conf} {evs : List Ev} {ch : Chan} {s : List (Nat × Seen)} (h : run c {} evs = .ok (ch, s)) (i : Nat) : Follows c .fresh (story i s) :=
  run_follow h (fun t ht => by simp at ht)

end Verif.Syncer
