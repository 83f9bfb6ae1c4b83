import Verif.SyncerProps

/-!
# The syncer: tracks of one source stay together
-/

namespace Verif.Syncer

open Verif.SyncerSpec

theorem chk_small {x : Int} (h : -2 ^ 63 ≤ x ∧ x < 2 ^ 63) : chk x = .ok x := by
  unfold chk
  rw [if_pos h]

theorem chk_abs {x : Int} (h : -2 ^ 62 ≤ x ∧ x ≤ 2 ^ 62) : chk x = .ok x ∧ chk x.natAbs = .ok (x.natAbs : Int) := by
  constructor
  · exact chk_small (by omega)
  · have : (0 : Int) ≤ x.natAbs ∧ (x.natAbs : Int) ≤ 2 ^ 62 := by omega
    exact chk_small ⟨by omega, by omega⟩

theorem s64_eq {x : Int} (h : -2 ^ 63 ≤ x ∧ x < 2 ^ 63) : s64 x = x := by
  unfold s64
  omega

theorem roundTo_eq {H k : Nat} {d : Int} (hH : 0 < H) (h1 : ((k * (2 * H) : Nat) : Int) - H ≤ d) (h2 : d < (k * (2 * H) : Nat) + H) (h3 : d + H < 2 ^ 64) :
    roundTo d (2 * H) = (k * (2 * H) : Nat) := by
  unfold roundTo
  have e1 : 2 * H / 2 = H := by omega
  rw [e1, Int.emod_eq_of_lt (by omega) h3]
  have : (d + (H : Int)).toNat / (2 * H) = k := by
    rw [Nat.div_eq_iff (by omega)]
    constructor
    · omega
    · omega
  rw [this]

/-- Settings and bounds of a channel. -/
structure Fine (c : Conf) (e H : Nat) : Prop where
  wrap : c.wrap = 2 * H
  pos : 0 < H
  bound : 2 * H ≤ 2 ^ 60
  reuse : c.reuse * c.timescale ≤ H
  tight : 2 * e < c.reuse * c.timescale
  back : c.back * c.timescale ≤ 2 ^ 60
  fwd : c.fwd * c.timescale ≤ 2 ^ 60

/-- A sync with a channel that has a correction. -/
theorem sync_again {c : Conf} {e H : Nat} (hf : Fine c e H) {ch : Chan} {i : Nat} {t : Trk} {p created : Int} {id n : Nat} {min K : Int} {m : Nat} (hc : (ch.corr - K).natAbs ≤ e)
    (ht : (created - p - (K + (m * (2 * H) : Nat))).natAbs ≤ e) (s1 : Small created) (s2 : Small p) (hK : e ≤ K) (hmin : min ≤ ch.corr + (m * (2 * H) : Nat)) :
    ∃ ch' t', syncTrack c ch i t p created id n min = .ok (ch', t') ∧ t'.corr = ch.corr + (m * (2 * H) : Nat) ∧ ch'.corr = ch.corr ∧ ch'.tracks = ch.tracks ∧ t'.video = t.video := by
  obtain ⟨f1, f2, f3, f4, f5, f6, f7⟩ := hf
  unfold Small at s1 s2
  obtain ⟨M, hM⟩ : ∃ M, M = m * (2 * H) := ⟨_, rfl⟩
  rw [← hM] at ht hmin ⊢
  unfold syncTrack
  rw [chk_small (by omega)]
  simp only [Res.bind_ok]
  obtain ⟨tc, htc⟩ : ∃ tc, tc = if created - p < min then min else created - p := ⟨_, rfl⟩
  rw [← htc]
  have htc' : (tc - (ch.corr + (M : Nat))).natAbs ≤ 2 * e := by rw [htc]; split <;> omega
  have htb : -2 ^ 62 ≤ tc ∧ tc ≤ 2 ^ 62 := by omega
  clear htc
  rw [chk_small (by omega)]
  simp only [Res.bind_ok]
  rw [f1, if_neg (by omega)]
  have hround : roundTo (tc - ch.corr) (2 * H) = (M : Nat) := by
    rw [hM]
    exact roundTo_eq f2 (by rw [← hM]; omega) (by rw [← hM]; omega) (by omega)
  rw [hround]
  have hb1 : -2 ^ 63 ≤ ch.corr + (M : Nat) ∧ ch.corr + (M : Nat) < 2 ^ 63 := by omega
  have hb2 : ch.corr + (M : Nat) - tc ≤ 2 * e ∧ -(2 * e : Int) ≤ ch.corr + (M : Nat) - tc := by omega
  have he : (2 * e : Int) ≤ 2 ^ 60 := by omega
  have hlt : (2 * e : Int) < (c.reuse * c.timescale : Nat) := by omega
  clear f1 f2 f3 f4 f5 f6 f7 s1 s2 htb htc' hc ht hK hround
  have hb3 := chk_abs (x := ch.corr + (M : Nat) - tc) ⟨by omega, by omega⟩
  rw [s64_eq hb1, hb3.1, Res.bind_ok, hb3.2, Res.bind_ok]
  have hlt2 : ((ch.corr + (M : Nat) - tc).natAbs : Int) < (c.reuse * c.timescale : Nat) := by omega
  rw [if_pos ⟨hlt2, hmin⟩]
  refine ⟨_, _, rfl, rfl, rfl, rfl, ?_⟩
  simp only []
  split <;> rfl

/-- The first sync of a channel. -/
theorem sync_first {c : Conf} {e H : Nat} (hf : Fine c e H) {ch : Chan} {i : Nat} {t : Trk} {p created : Int} {id n : Nat} {K : Int} (hc : ch.corr = 0)
    (ht : (created - p - K).natAbs ≤ e) (s1 : Small created) (s2 : Small p) (hK : e ≤ K) (hfar : ∀ k : Nat, c.reuse * c.timescale + e ≤ (K - (k * (2 * H) : Nat)).natAbs) :
    ∃ ch' t', syncTrack c ch i t p created id n (-2 ^ 63) = .ok (ch', t') ∧ t'.corr = created - p ∧ ch'.corr = created - p ∧
      (ch'.tracks = ch.tracks ∨ ch'.tracks = forceOthers i n ch.tracks) ∧ t'.video = t.video := by
  obtain ⟨f1, f2, f3, f4, f5, f6, f7⟩ := hf
  unfold Small at s1 s2
  unfold syncTrack
  rw [chk_small (by omega)]
  simp only [Res.bind_ok]
  rw [if_neg (by omega), if_neg (by omega), hc, Int.sub_zero, chk_small (by omega)]
  simp only [Res.bind_ok]
  rw [f1, if_neg (by omega)]
  obtain ⟨k, hk⟩ : ∃ k, k = (created - p + H).toNat / (2 * H) := ⟨_, rfl⟩
  have hd := Nat.div_add_mod (created - p + H).toNat (2 * H)
  have hl := Nat.mod_lt (created - p + H).toNat (show 0 < 2 * H by omega)
  rw [← hk] at hd
  obtain ⟨M, hM⟩ : ∃ M, M = k * (2 * H) := ⟨_, rfl⟩
  have hd' : M + (created - p + H).toNat % (2 * H) = (created - p + H).toNat := by rw [hM, Nat.mul_comm]; exact hd
  have hround : roundTo (created - p) (2 * H) = (M : Nat) := by
    rw [hM]
    exact roundTo_eq f2 (by rw [← hM]; omega) (by rw [← hM]; omega) (by omega)
  have hfar' := hfar k
  rw [← hM] at hfar'
  have hb1 : -2 ^ 63 ≤ ((M : Nat) : Int) ∧ ((M : Nat) : Int) < 2 ^ 63 := by omega
  have hb2 : ((M : Nat) : Int) - (created - p) ≤ 2 ^ 61 ∧ -2 ^ 61 ≤ ((M : Nat) : Int) - (created - p) := by omega
  have hx : ((c.reuse * c.timescale : Nat) : Int) ≤ (((M : Nat) : Int) - (created - p)).natAbs := by omega
  rw [hround, Int.zero_add]
  clear f1 f2 f3 f4 f5 f6 f7 s1 s2 hc ht hK hround hfar hfar' hd hd' hl
  have hb3 := chk_abs (x := ((M : Nat) : Int) - (created - p)) ⟨by omega, by omega⟩
  rw [s64_eq hb1, hb3.1, Res.bind_ok, hb3.2, Res.bind_ok]
  have hno : ¬ (((((M : Nat) : Int) - (created - p)).natAbs : Int) < (c.reuse * c.timescale : Nat) ∧ -2 ^ 63 ≤ ((M : Nat) : Int)) := by
    intro hh
    have := hh.1
    omega
  rw [if_neg hno]
  refine ⟨_, _, rfl, rfl, rfl, ?_, rfl⟩
  simp only []
  split
  · exact Or.inr rfl
  · exact Or.inl rfl

/-- The state of a track of a source, when the channel has the correction `a`. -/
def Fit (a M : Int) (t : Trk) (x : Bool × Option Int) : Prop :=
  t.video = x.1 ∧ (x.2 = none → t.lastPts = inv) ∧ ∀ d, x.2 = some d → t.corr = a + M ∧ t.lastOut = d + t.corr ∧ Small t.lastPts ∧ Small d

theorem Fit.alike {a M : Int} {t u : Trk} {x : Bool × Option Int} (h : Fit a M t x) (l : Alike t u) : Fit a M u x := by
  rw [l]
  exact h

theorem getPts_small {video : Bool} {f : Frame} (h : Small (pts video f)) : getPts video f = .ok (pts video f) := by
  unfold getPts
  unfold Small pts at h
  unfold pts
  cases video
  · rfl
  · simp only [if_true] at h ⊢
    exact chk_small (by omega)

/-- A frame when the channel has a correction. -/
theorem frame_again {c : Conf} {e H : Nat} (hf : Fine c e H) {ch : Chan} {i : Nat} {t : Trk} {f : Frame} {K : Int} {m : Nat} {x : Bool × Option Int} (hc : (ch.corr - K).natAbs ≤ e)
    (hK : e ≤ K) (hfit : Fit ch.corr (m * (2 * H) : Nat) t x) (ht : Timed (K + (m * (2 * H) : Nat)) e x.1 f) (hs : x.2 = none → starts x.1 f) (hd : ∀ d, x.2 = some d → d < f.dts) :
    ∃ ch' u f', addFrame c ch i t f = .ok (ch', f') ∧ f'.dts = f.dts + ch.corr + (m * (2 * H) : Nat) ∧ ch'.corr = ch.corr ∧ ch'.tracks = ch.tracks.set i u ∧
      Fit ch.corr (m * (2 * H) : Nat) u (x.1, some f.dts) := by
  obtain ⟨t1, t2, t3, t4⟩ := ht
  unfold addFrame
  simp only []
  rw [← show ready t = if t.force > 1 then { t with force := t.force - 1 } else t from rfl]
  have hr : Fit ch.corr (m * (2 * H) : Nat) (ready t) x := hfit.alike (ready_alike t)
  obtain ⟨r, hre⟩ : ∃ r, r = ready t := ⟨_, rfl⟩
  rw [← hre]
  rw [← hre] at hr
  clear hre hfit
  obtain ⟨r1, r2, r3⟩ := hr
  rw [r1, getPts_small t3]
  simp only [Res.bind_ok]
  have hb := hf.bound
  have hre := hf.reuse
  have hti := hf.tight
  have hbk := hf.back
  have hfw := hf.fwd
  obtain ⟨M, hM⟩ : ∃ M, M = m * (2 * H) := ⟨_, rfl⟩
  have hlast : ∀ (ch1 : Chan) (u : Trk) (g : Frame), g.dts = f.dts → u.video = x.1 → u.corr = ch.corr + (m * (2 * H) : Nat) → ch1.corr = ch.corr → ch1.tracks = ch.tracks →
      ∃ ch' w f', (chk (g.dts + u.corr) >>= fun dts => Res.ok ({ ch1 with tracks := ch1.tracks.set i { u with lastPts := pts x.1 f, lastOut := dts } }, { g with dts := dts })) =
        .ok (ch', f') ∧ f'.dts = f.dts + ch.corr + (m * (2 * H) : Nat) ∧ ch'.corr = ch.corr ∧ ch'.tracks = ch.tracks.set i w ∧ Fit ch.corr (m * (2 * H) : Nat) w (x.1, some f.dts) := by
    intro ch1 u g hg hv hu h1 h2
    rw [← hM] at t4 hu ⊢
    have hu' : g.dts + u.corr = f.dts + (ch.corr + (M : Nat)) := by omega
    rw [hu']
    unfold Small at t1 t2 t3
    rw [chk_small (by omega)]
    simp only [Res.bind_ok]
    refine ⟨_, { u with lastPts := pts x.1 f, lastOut := f.dts + (ch.corr + (M : Nat)) }, _, rfl, ?_, h1, by simp only []; rw [h2], hv, fun hh => (by cases hh), fun d hd => ?_⟩
    · show f.dts + (ch.corr + (M : Nat)) = _
      omega
    · simp only [Option.some.injEq] at hd
      subst hd
      refine ⟨hu, ?_, t3, t2⟩
      show f.dts + (ch.corr + (M : Nat)) = f.dts + u.corr
      omega
  have hsync : ∀ n (g : Frame) (min : Int), g.dts = f.dts → min ≤ ch.corr + (m * (2 * H) : Nat) →
      ∃ ch' w f', ((syncTrack c ch i r (pts x.1 f) f.created f.id n min).map (fun y => (y.1, y.2, g)) >>= fun y =>
        chk (y.2.2.dts + y.2.1.corr) >>= fun dts => Res.ok ({ y.1 with tracks := y.1.tracks.set i { y.2.1 with lastPts := pts x.1 f, lastOut := dts } }, { y.2.2 with dts := dts })) =
        .ok (ch', f') ∧ f'.dts = f.dts + ch.corr + (m * (2 * H) : Nat) ∧ ch'.corr = ch.corr ∧ ch'.tracks = ch.tracks.set i w ∧ Fit ch.corr (m * (2 * H) : Nat) w (x.1, some f.dts) := by
    intro n g min hg hmin
    obtain ⟨ch1, u, s1, s2, s3, s4, s5⟩ := sync_again hf (i := i) (t := r) (id := f.id) (n := n) hc t4 t1 t3 hK hmin
    rw [s1]
    simp only [Res.map_ok, Res.bind_ok]
    exact hlast ch1 u g hg (by rw [s5, r1]) s2 s3 s4
  have hlow : ∀ n, (-2 : Int) ^ 63 ≤ n → (-2 : Int) ^ 63 ≤ n := fun _ h => h
  have hmin0 : (-2 : Int) ^ 63 ≤ ch.corr + (m * (2 * H) : Nat) := by omega
  cases hx : x.2 with
  | none =>
    have hst := hs hx
    rw [if_neg (by rw [inter_iff]; exact fun hh => hh hst)]
    unfold keyAct
    have hl := r2 hx
    by_cases hfo : r.force = 1
    · rw [if_pos hfo]
      simp only [Res.bind_ok, perform]
      exact hsync _ _ _ rfl hmin0
    · rw [if_neg hfo, if_pos hl]
      simp only [Res.bind_ok, perform]
      exact hsync _ _ _ rfl hmin0
  | some d =>
    obtain ⟨q1, q2, q3, q4⟩ := r3 d hx
    have hdd := hd d hx
    by_cases hst : starts x.1 f
    · rw [if_neg (by rw [inter_iff]; exact fun hh => hh hst)]
      unfold keyAct
      by_cases hfo : r.force = 1
      · rw [if_pos hfo]
        simp only [Res.bind_ok, perform]
        exact hsync _ _ _ rfl hmin0
      · rw [if_neg hfo, if_neg (by unfold inv; unfold Small at q3; omega)]
        have e1 : chk (pts x.1 f + r.corr) = .ok (pts x.1 f + r.corr) := by
          rw [q1, ← hM]; rw [← hM] at t4
          unfold Small at t1 t3
          exact chk_small (by omega)
        have e2 : chk (f.created - (c.back * c.timescale : Nat)) = .ok (f.created - (c.back * c.timescale : Nat)) := by
          unfold Small at t1
          exact chk_small (by omega)
        have e3 : chk (f.created + (c.fwd * c.timescale : Nat)) = .ok (f.created + (c.fwd * c.timescale : Nat)) := by
          unfold Small at t1
          exact chk_small (by omega)
        rw [e1]
        simp only [Res.bind_ok]
        rw [e2]
        simp only [Res.bind_ok]
        by_cases g1 : pts x.1 f + r.corr < f.created - (c.back * c.timescale : Nat)
        · rw [if_pos g1]
          simp only [Res.bind_ok, perform]
          exact hsync _ _ _ rfl hmin0
        · rw [if_neg g1, e3]
          simp only [Res.bind_ok]
          by_cases g2 : f.created + (c.fwd * c.timescale : Nat) < pts x.1 f + r.corr
          · rw [if_pos g2]
            simp only [Res.bind_ok, perform]
            exact hsync _ _ _ rfl hmin0
          · rw [if_neg g2]
            simp only [Res.bind_ok, perform]
            exact hlast ch r f rfl r1 q1 rfl rfl
    · rw [if_pos (by rw [inter_iff]; exact hst)]
      unfold interAct
      have e1 : ∃ y, (if pts x.1 f < r.lastPts then r.lastPts - pts x.1 f else pts x.1 f - r.lastPts) = y ∧ chk y = .ok y := by
        refine ⟨_, rfl, chk_small ?_⟩
        unfold Small at t3 q3
        split <;> omega
      obtain ⟨y, y1, y2⟩ := e1
      rw [y1, y2]
      simp only [Res.bind_ok]
      by_cases g1 : y ≤ (c.jumpLog * c.timescale : Nat) ∨ r.lastPts = inv
      · rw [if_pos g1]
        simp only [Res.bind_ok, perform]
        exact hlast ch r f rfl r1 q1 rfl rfl
      · rw [if_neg g1]
        by_cases g2 : y ≤ (c.jump * c.timescale : Nat)
        · rw [if_pos g2]
          simp only [Res.bind_ok, perform]
          exact hlast ch r f rfl r1 q1 rfl rfl
        · rw [if_neg g2]
          have hb1 : -2 ^ 62 ≤ r.corr ∧ r.corr ≤ 2 ^ 62 := by
            rw [q1, ← hM]; rw [← hM] at t4
            unfold Small at t1 t3
            omega
          unfold Small at t2 q4
          rw [if_pos (by rw [q2]; unfold inv; omega), q2, chk_small (by omega)]
          simp only [Res.bind_ok]
          rw [chk_small (by omega)]
          simp only [Res.bind_ok, perform]
          exact hsync _ _ _ rfl (by rw [← q1]; omega)

/-- The first frame of a channel. -/
theorem frame_first {c : Conf} {e H : Nat} (hf : Fine c e H) {ch : Chan} {i : Nat} {t : Trk} {f : Frame} {K : Int} (hc : ch.corr = 0) (hK : e ≤ K)
    (hfar : ∀ k : Nat, c.reuse * c.timescale + e ≤ (K - (k * (2 * H) : Nat)).natAbs) (hl : t.lastPts = inv) (ht : Timed K e t.video f) (hs : starts t.video f) :
    ∃ ch' u f', addFrame c ch i t f = .ok (ch', f') ∧ f'.dts = f.dts + ch'.corr ∧ (ch'.corr - K).natAbs ≤ e ∧
      (∃ l, ch'.tracks = l.set i u ∧ Others i ch.tracks l) ∧ Fit ch'.corr 0 u (t.video, some f.dts) := by
  obtain ⟨t1, t2, t3, t4⟩ := ht
  unfold addFrame
  simp only []
  rw [← show ready t = if t.force > 1 then { t with force := t.force - 1 } else t from rfl]
  have hr1 : (ready t).video = t.video := by rw [ready_alike t]
  have hr2 : (ready t).lastPts = inv := by rw [ready_alike t]; exact hl
  obtain ⟨r, hre⟩ : ∃ r, r = ready t := ⟨_, rfl⟩
  rw [← hre] at hr1 hr2 ⊢
  clear hre
  rw [hr1, getPts_small t3, Res.bind_ok, if_neg (by rw [inter_iff]; exact fun hh => hh hs)]
  have ha : keyAct c r (pts t.video f) f.created = .ok (.sync 0) := by
    unfold keyAct
    split
    · rfl
    · rfl
  rw [ha, Res.bind_ok]
  obtain ⟨ch1, u, s1, s2, s3, s4, s5⟩ := sync_first hf (i := i) (t := r) (id := f.id) (n := 0) hc t4 t1 t3 hK hfar
  unfold perform
  simp only []
  rw [s1, Res.map_ok, Res.bind_ok]
  have hb : -2 ^ 63 ≤ f.dts + u.corr ∧ f.dts + u.corr < 2 ^ 63 := by
    unfold Small at t1 t2 t3
    rw [s2]
    omega
  rw [chk_small hb, Res.bind_ok]
  refine ⟨_, _, _, rfl, ?_, ?_, ⟨_, rfl, ?_⟩, ?_, fun hh => (by cases hh), fun d hd => ?_⟩
  · show f.dts + u.corr = f.dts + ch1.corr
    rw [s2, s3]
  · show (ch1.corr - K).natAbs ≤ e
    rw [s3]
    exact t4
  · simp only []
    rcases s4 with s4 | s4
    · rw [s4]
      exact Others.refl _ _
    · rw [s4]
      exact forceOthers_others _ _ _
  · show u.video = _
    rw [s5, hr1]
  · simp only [Option.some.injEq] at hd
    subst hd
    refine ⟨?_, rfl, t3, t2⟩
    show u.corr = ch1.corr + 0
    rw [s2, s3, Int.add_zero]

/-- All tracks of a source. -/
def AllFit (a : Int) (M : Nat → Int) (l : List Trk) (ts : List (Bool × Option Int)) : Prop :=
  l.length = ts.length ∧ ∀ (i : Nat) (t : Trk) (x : Bool × Option Int), l[i]? = some t → ts[i]? = some x → Fit a (M i) t x

theorem AllFit.add {a : Int} {M : Nat → Int} {l : List Trk} {ts : List (Bool × Option Int)} (h : AllFit a M l ts) (v : Bool) : AllFit a M (l ++ [{ video := v }]) (ts ++ [(v, none)]) := by
  refine ⟨by simp [h.1], fun i t x hi hx => ?_⟩
  by_cases hlt : i < l.length
  · rw [List.getElem?_append_left hlt] at hi
    rw [List.getElem?_append_left (h.1 ▸ hlt)] at hx
    exact h.2 i t x hi hx
  · by_cases he : i = l.length
    · subst he
      rw [List.getElem?_append_right (Nat.le_refl _), Nat.sub_self] at hi
      rw [h.1, List.getElem?_append_right (Nat.le_refl _), Nat.sub_self] at hx
      simp only [List.getElem?_cons_zero, Option.some.injEq] at hi hx
      subst hi hx
      exact ⟨rfl, fun _ => rfl, fun d hd => by cases hd⟩
    · rw [List.getElem?_eq_none (by simp; omega)] at hi
      cases hi

theorem AllFit.set {a : Int} {M : Nat → Int} {l : List Trk} {ts : List (Bool × Option Int)} (h : AllFit a M l ts) {i : Nat} {u : Trk} {x : Bool × Option Int} (hu : Fit a (M i) u x) :
    AllFit a M (l.set i u) (ts.set i x) := by
  refine ⟨by simp [h.1], fun j t y hj hy => ?_⟩
  by_cases he : i = j
  · subst he
    rw [List.getElem?_set] at hj hy
    simp only [if_true] at hj hy
    split at hj
    · split at hy
      · cases hj; cases hy; exact hu
      · cases hy
    · cases hj
  · rw [List.getElem?_set_ne he] at hj hy
    exact h.2 j t y hj hy

theorem AllFit.others {a : Int} {M : Nat → Int} {l k : List Trk} {ts : List (Bool × Option Int)} {i : Nat} (h : AllFit a M l ts) (o : Others i l k) : AllFit a M k ts := by
  refine ⟨by rw [o.1, h.1], fun j t y hj hy => ?_⟩
  have hlt : j < l.length := by rw [← o.1]; exact (List.getElem?_eq_some_iff.1 hj).1
  obtain ⟨u, u1, u2⟩ := o.2 j l[j] (List.getElem?_eq_getElem hlt)
  rw [hj] at u1
  cases u1
  exact (h.2 j _ y (List.getElem?_eq_getElem hlt) hy).alike u2

/-- The frames that are handed on have the shift of their track. -/
def Shifted (M : Nat → Int) (a : Int) (s : List (Nat × Seen)) : Prop := ∀ i video f f', (i, Seen.frame video f f') ∈ s → f'.dts = f.dts + a + M i

theorem get_track {a : Int} {M : Nat → Int} {l : List Trk} {ts : List (Bool × Option Int)} (h : AllFit a M l ts) {i : Nat} {x : Bool × Option Int} (hx : ts[i]? = some x) :
    ∃ t, l[i]? = some t ∧ Fit a (M i) t x := by
  have hlt : i < l.length := by rw [h.1]; exact (List.getElem?_eq_some_iff.1 hx).1
  exact ⟨l[i], List.getElem?_eq_getElem hlt, h.2 i _ x (List.getElem?_eq_getElem hlt) hx⟩

theorem cast_mul (m H : Nat) : (m : Int) * ((2 * H : Nat) : Int) = ((m * (2 * H) : Nat) : Int) := by
  rw [Int.natCast_mul m (2 * H)]

theorem run_again {c : Conf} {e H : Nat} (hf : Fine c e H) {K : Int} (hK : e ≤ K) {m : Nat → Nat} {a : Int} (hc : (a - K).natAbs ≤ e) {evs : List Ev} :
    ∀ {ch : Chan} {ts : List (Bool × Option Int)}, ch.corr = a → AllFit a (fun i => ((m i * (2 * H) : Nat) : Int)) ch.tracks ts →
      Source K e (2 * H) (fun i => (m i : Int)) ts evs → ∃ ch' s, run c ch evs = .ok (ch', s) ∧ Shifted (fun i => ((m i * (2 * H) : Nat) : Int)) a s := by
  induction evs with
  | nil =>
    intro ch ts _ _ _
    exact ⟨ch, [], rfl, fun i v f f' h => by cases h⟩
  | cons ev l ih =>
    intro ch ts ha hall hsrc
    cases ev with
    | add v =>
      obtain ⟨ch', s, r1, r2⟩ := ih (ch := { ch with tracks := ch.tracks ++ [{ video := v }] }) (ts := ts ++ [(v, none)]) ha (hall.add v) hsrc
      refine ⟨ch', (ch.tracks.length, .reset) :: s, ?_, fun i v f f' h => ?_⟩
      · unfold run step
        simp only [Res.bind_ok]
        rw [r1]
        rfl
      · simp only [List.mem_cons, Prod.mk.injEq, reduceCtorEq, and_false, false_or] at h
        exact r2 i v f f' h
    | inactive i =>
      obtain ⟨v, d, g1, g2⟩ := hsrc
      obtain ⟨t, t1, t2⟩ := get_track hall g1
      obtain ⟨ch', s, r1, r2⟩ := ih (ch := { ch with tracks := ch.tracks.set i (resetTrack t) }) (ts := ts.set i (v, none)) ha
        (hall.set ⟨t2.1, fun _ => rfl, fun d hd => by cases hd⟩) g2
      refine ⟨ch', (i, .reset) :: s, ?_, fun i v f f' h => ?_⟩
      · unfold run step
        simp only [t1, Res.bind_ok]
        rw [r1]
        rfl
      · simp only [List.mem_cons, Prod.mk.injEq, reduceCtorEq, and_false, false_or] at h
        exact r2 i v f f' h
    | reconnect => exact hsrc.elim
    | frame i f =>
      obtain ⟨v, d, g1, g2, g3, g4, g5⟩ := hsrc
      obtain ⟨t, t1, t2⟩ := get_track hall g1
      rw [cast_mul] at g2
      subst ha
      obtain ⟨ch1, u, f', a1, a2, a3, a4, a5⟩ := frame_again hf (ch := ch) (i := i) (t := t) (f := f) (m := m i) (x := (v, d)) hc hK t2 g2 g3 g4
      obtain ⟨ch', s, r1, r2⟩ := ih (ch := ch1) (ts := ts.set i (v, some f.dts)) a3 (by rw [a4]; exact hall.set a5) g5
      refine ⟨ch', (i, .frame t.video f f') :: s, ?_, fun j w g g' h => ?_⟩
      · unfold run step
        simp only [t1]
        rw [a1, Res.map_ok, Res.bind_ok, r1]
        rfl
      · rcases List.mem_cons.1 h with h | h
        · simp only [Prod.mk.injEq, Seen.frame.injEq] at h
          obtain ⟨rfl, rfl, rfl, rfl⟩ := h
          exact a2
        · exact r2 j w g g' h

/-- Before the first frame. -/
theorem run_first {c : Conf} {e H : Nat} (hf : Fine c e H) {K : Int} (hK : e ≤ K) (hfar : ∀ k : Nat, c.reuse * c.timescale + e ≤ (K - (k * (2 * H) : Nat)).natAbs) {m : Nat → Nat}
    {evs : List Ev} : ∀ {ch : Chan} {ts : List (Bool × Option Int)}, ch.corr = 0 → (∀ x ∈ ts, x.2 = none) → (∀ a M, AllFit a M ch.tracks ts) →
      (∀ j, firstTrack evs = some j → m j = 0) → Source K e (2 * H) (fun i => (m i : Int)) ts evs →
      ∃ ch' s a, run c ch evs = .ok (ch', s) ∧ (a - K).natAbs ≤ e ∧ Shifted (fun i => ((m i * (2 * H) : Nat) : Int)) a s := by
  induction evs with
  | nil =>
    intro ch ts _ _ _ _ _
    exact ⟨ch, [], K, rfl, by simp, fun i v f f' h => by cases h⟩
  | cons ev l ih =>
    intro ch ts h0 hn hall hm hsrc
    cases ev with
    | add v =>
      obtain ⟨ch', s, a, r1, r2, r3⟩ := ih (ch := { ch with tracks := ch.tracks ++ [{ video := v }] }) (ts := ts ++ [(v, none)]) h0
        (fun x hx => by
          rcases List.mem_append.1 hx with hx | hx
          · exact hn x hx
          · rw [List.mem_singleton.1 hx]) (fun a M => (hall a M).add v) hm hsrc
      refine ⟨ch', (ch.tracks.length, .reset) :: s, a, ?_, r2, fun i v f f' h => ?_⟩
      · unfold run step
        simp only [Res.bind_ok]
        rw [r1]
        rfl
      · simp only [List.mem_cons, Prod.mk.injEq, reduceCtorEq, and_false, false_or] at h
        exact r3 i v f f' h
    | inactive i =>
      obtain ⟨v, d, g1, g2⟩ := hsrc
      obtain ⟨t, t1, t2⟩ := get_track (hall 0 (fun _ => 0)) g1
      obtain ⟨ch', s, a, r1, r2, r3⟩ := ih (ch := { ch with tracks := ch.tracks.set i (resetTrack t) }) (ts := ts.set i (v, none)) h0
        (fun x hx => by
          rcases List.mem_or_eq_of_mem_set hx with hx | hx
          · exact hn x hx
          · rw [hx]) (fun a M => (hall a M).set ⟨t2.1, fun _ => rfl, fun d hd => by cases hd⟩) hm g2
      refine ⟨ch', (i, .reset) :: s, a, ?_, r2, fun i v f f' h => ?_⟩
      · unfold run step
        simp only [t1, Res.bind_ok]
        rw [r1]
        rfl
      · simp only [List.mem_cons, Prod.mk.injEq, reduceCtorEq, and_false, false_or] at h
        exact r3 i v f f' h
    | reconnect => exact hsrc.elim
    | frame i f =>
      obtain ⟨v, d, g1, g2, g3, g4, g5⟩ := hsrc
      obtain ⟨t, t1, t2⟩ := get_track (hall 0 (fun _ => 0)) g1
      have hmi : m i = 0 := hm i rfl
      have hd : d = none := hn (v, d) (List.mem_of_getElem? g1)
      simp only [hmi, Int.natCast_zero, Int.zero_mul, Int.add_zero] at g2
      have hv : t.video = v := t2.1
      obtain ⟨ch1, u, f', a1, a2, a3, ⟨k, a4, a5⟩, a6⟩ := frame_first hf (ch := ch) (i := i) (t := t) (f := f) h0 hK hfar (t2.2.1 hd) (by rw [hv]; exact g2) (by rw [hv]; exact g3 hd)
      rw [hv] at a6
      have hz : ((m i * (2 * H) : Nat) : Int) = 0 := by rw [hmi, Nat.zero_mul]; rfl
      obtain ⟨ch', s, r1, r2⟩ := run_again hf hK (m := m) a3 (ch := ch1) (ts := ts.set i (v, some f.dts)) rfl
        (by
          rw [a4]
          refine AllFit.set ((hall ch1.corr _).others a5) ?_
          simp only [hz]
          exact a6) g5
      refine ⟨ch', (i, .frame t.video f f') :: s, ch1.corr, ?_, a3, fun j w g g' h => ?_⟩
      · unfold run step
        simp only [t1]
        rw [a1, Res.map_ok, Res.bind_ok, r1]
        rfl
      · rcases List.mem_cons.1 h with h | h
        · simp only [Prod.mk.injEq, Seen.frame.injEq] at h
          obtain ⟨rfl, rfl, rfl, rfl⟩ := h
          show g'.dts = g.dts + ch1.corr + ((m j * (2 * H) : Nat) : Int)
          rw [hz, a2, Int.add_zero]
        · exact r2 j w g g' h

/-- **C119** (part). All tracks of one source get the same shift, but for multiples of the value at which the times of RTMP wrap. Missing: tracks that wrapped more often than the first, and
sources that are nearly on time (`not_together`, `not_near`). -/
theorem together_partial {c : Conf} {e : Nat} (hs : Sane c e) {K : Int} (hK : e ≤ K) (hfar : Far c e K) {m : Nat → Nat} {evs : List Ev} (hm : ∀ j, firstTrack evs = some j → m j = 0)
    (hsrc : Source K e (period c) (fun i => (m i : Int)) [] evs) :
    ∃ ch s a, run c {} evs = .ok (ch, s) ∧ (a - K).natAbs ≤ e ∧ ∀ i video f f', (i, Seen.frame video f f') ∈ s → f'.dts = f.dts + a + m i * period c := by
  obtain ⟨s1, s2, s3, s4, s5, s6⟩ := hs
  have hp : period c = 2 * (2 ^ 31 * (c.timescale / 1000)) := by unfold period; omega
  have hf : Fine c e (2 ^ 31 * (c.timescale / 1000)) := by
    refine ⟨hp, by omega, by omega, by omega, s4, s5, s6⟩
  unfold Far at hfar
  rw [hp] at hsrc hfar
  obtain ⟨ch, s, a, r1, r2, r3⟩ := run_first hf hK hfar (ch := {}) (ts := []) rfl (fun x hx => by cases hx) (fun a M => ⟨rfl, fun i t x h => by cases h⟩) hm hsrc
  refine ⟨ch, s, a, r1, r2, fun i v f f' h => ?_⟩
  have := r3 i v f f' h
  simp only [] at this
  rw [this, hp, ← cast_mul]

end Verif.Syncer
