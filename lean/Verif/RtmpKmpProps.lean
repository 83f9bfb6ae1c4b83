import Verif.RtmpKmpRun

/-!
# RTMP to KMP: what is sent
-/

namespace Verif.RtmpKmp

open Verif.RtmpKmpSpec

/-- What was written to the video track. -/
def Strm.videoOut (s : Strm) : List Out := (s.video.map (·.out)).getD []

/-- What was written to the audio track. -/
def Strm.audioOut (s : Strm) : List Out := (s.audio.map (·.out)).getD []

theorem dtsRun_video (c : Conf) : ∀ (ys : List Item) (info : Option Info) (base : Int) (samples : Nat) (told : Bool),
    dtsRun true c info base samples told ys = (times ys).map (· * ((c.timescale / 1000 : Nat) : Int)) := by
  intro ys
  induction ys with
  | nil => intros; rfl
  | cons y ys ih =>
    intro info base samples told
    unfold dtsRun
    cases hy : y.tag with
    | config d =>
      have hf : y.full = false := by unfold Item.full; rw [hy]
      simp only [ih]
      simp [times, hf]
    | frame key delay d =>
      by_cases hd : d = []
      · have hf : y.full = false := by unfold Item.full; rw [hy]; simp [hd]
        simp only [if_pos hd, ih]
        simp [times, hf]
      · have hf : y.full = true := by unfold Item.full; rw [hy]; simp [hd]
        simp only [if_neg hd, ih]
        simp [times, hf, sync]

/-- Another codec than AAC. -/
theorem sync_noAac {c : Conf} {info : Option Info} (h : ∀ i, info = some i → NoAac i) (base : Int) (samples : Nat) (dts : Int) :
    sync false c info base samples dts = (base, samples, dts) := by
  unfold sync syncAudio
  rw [if_neg (by decide)]
  rcases info with _ | ⟨_ | _⟩
  · rfl
  · rfl
  · have := h _ rfl
    simp only [NoAac] at this
    simp only [if_pos this]

theorem dtsRun_noAac (c : Conf) : ∀ (ys : List Item) (info : Option Info) (base : Int) (samples : Nat) (told : Bool), (∀ i, info = some i → NoAac i) →
    (∀ y ∈ ys, NoAac y.info) → dtsRun false c info base samples told ys = (times ys).map (· * ((c.timescale / 1000 : Nat) : Int)) := by
  intro ys
  induction ys with
  | nil => intros; rfl
  | cons y ys ih =>
    intro info base samples told hi hn
    have hn' := fun z hz => hn z (List.mem_cons_of_mem _ hz)
    unfold dtsRun
    cases hy : y.tag with
    | config d =>
      have hf : y.full = false := by unfold Item.full; rw [hy]
      simp only [ih _ _ _ _ hi hn']
      simp [times, hf]
    | frame key delay d =>
      by_cases hd : d = []
      · have hf : y.full = false := by unfold Item.full; rw [hy]; simp [hd]
        simp only [if_pos hd, ih _ _ _ _ hi hn']
        simp [times, hf]
      · have hf : y.full = true := by unfold Item.full; rw [hy]; simp [hd]
        have hi' : ∀ i, (if told then info else some y.info) = some i → NoAac i := by
          intro i h
          cases told with
          | true => exact hi i h
          | false => simp only [Bool.false_eq_true, if_false, Option.some.injEq] at h; rw [← h]; exact hn y List.mem_cons_self
        simp only [if_neg hd, ih _ _ _ _ hi' hn', sync_noAac hi]
        simp [times, hf]

/-- The margin, in ticks. -/
def ticks (c : Conf) : Int := ((c.margin * c.timescale / 1000 : Nat) : Int)

theorem sync_near (c : Conf) (info : Option Info) (base : Int) (samples : Nat) (dts : Int) :
    -ticks c ≤ (sync false c info base samples dts).2.2 - dts ∧ (sync false c info base samples dts).2.2 - dts ≤ ticks c := by
  have h0 : 0 ≤ ticks c := by unfold ticks; omega
  unfold sync syncAudio
  rw [if_neg (by decide)]
  rcases info with _ | ⟨_ | _⟩
  · simp only []; omega
  · simp only []; omega
  · simp only []
    split
    · simp only []; omega
    · split
      · simp only []; omega
      · split
        · rename_i hh
          simp only []
          have hm : ((c.margin * c.timescale / 1000 % 2 ^ 32 : Nat) : Int) ≤ ticks c := by
            unfold ticks
            exact Int.ofNat_le.2 (Nat.mod_le _ _)
          omega
        · simp only []; omega

theorem dtsRun_near (c : Conf) : ∀ (ys : List Item) (info : Option Info) (base : Int) (samples : Nat) (told : Bool),
    AllNear (ticks c) (dtsRun false c info base samples told ys) ((times ys).map (· * ((c.timescale / 1000 : Nat) : Int))) := by
  intro ys
  induction ys with
  | nil => intros; trivial
  | cons y ys ih =>
    intro info base samples told
    unfold dtsRun
    cases hy : y.tag with
    | config d =>
      have hf : y.full = false := by unfold Item.full; rw [hy]
      have : times (y :: ys) = times ys := by simp [times, hf]
      rw [this]
      exact ih _ _ _ _
    | frame key delay d =>
      by_cases hd : d = []
      · have hf : y.full = false := by unfold Item.full; rw [hy]; simp [hd]
        have : times (y :: ys) = times ys := by simp [times, hf]
        rw [this]
        simp only [if_pos hd]
        exact ih _ _ _ _
      · have hf : y.full = true := by unfold Item.full; rw [hy]; simp [hd]
        have : times (y :: ys) = y.time :: times ys := by simp [times, hf]
        rw [this]
        simp only [if_neg hd, List.map_cons]
        exact ⟨sync_near _ _ _ _ _, ih _ _ _ _⟩

theorem steady_ok {t : Track} (h : t.synced = false) {l : List Int} (hs : Steady l) : TimeOk t l := by
  unfold TimeOk; rw [h]; exact hs

/-- What is sent for a stream. -/
theorem stream_run {c : Conf} {xs : List Input} {vids auds : List Item} (hs : c.timescale / 1000 ≤ 255)
    (hv : AllCarry true c.timescale (xs.filter fun x => x.msg.type == 9) vids) (ha : AllCarry false c.timescale (xs.filter fun x => x.msg.type == 8) auds)
    (sv : Steady (times vids)) (sa : Steady (times auds)) : ∃ s, avs c {} xs = .ok s ∧
      s.videoOut = packets (c.timescale / 1000) {} vids ((times vids).map (· * ((c.timescale / 1000 : Nat) : Int))) ∧
      s.audioOut = packets (c.timescale / 1000) {} auds (dtsRun false c none 0 0 false auds) := by
  obtain ⟨v, v1, v2⟩ := track_run hs _ vids { video := true } {} hv ⟨rfl, rfl, rfl, rfl⟩ (steady_ok rfl sv)
  obtain ⟨a, a1, a2⟩ := track_run hs _ auds { video := false } {} ha ⟨rfl, rfl, rfl, rfl⟩ (steady_ok rfl sa)
  obtain ⟨s, s1, s2, s3⟩ := avs_eq xs {} v a v1 a1
  refine ⟨s, s1, ?_, ?_⟩
  · have : s.videoOut = v.out := by
      rw [← s2]; unfold Strm.videoOut
      cases s.video <;> rfl
    rw [this, v2, dtsRun_video]
    rfl
  · have : s.audioOut = a.out := by
      rw [← s3]; unfold Strm.audioOut
      cases s.audio <;> rfl
    rw [this, a2]
    rfl

/-- **C114** (part). The packets of a stream are its frames, in order, with their data, flags and times in ticks. Missing: times that go over an odd
multiple of 2 ^ 31 ms (`not_any_times`). -/
theorem stream_partial {c : Conf} {xs : List Input} {vids auds : List Item} (hs : c.timescale / 1000 ≤ 255)
    (hv : AllCarry true c.timescale (xs.filter fun x => x.msg.type == 9) vids) (ha : AllCarry false c.timescale (xs.filter fun x => x.msg.type == 8) auds)
    (sv : Steady (times vids)) (sa : Steady (times auds)) : ∃ s ds, avs c {} xs = .ok s ∧
      s.videoOut = packets (c.timescale / 1000) {} vids ((times vids).map (· * ((c.timescale / 1000 : Nat) : Int))) ∧
      s.audioOut = packets (c.timescale / 1000) {} auds ds ∧ AllNear (ticks c) ds ((times auds).map (· * ((c.timescale / 1000 : Nat) : Int))) ∧
      ((∀ y ∈ auds, NoAac y.info) → ds = (times auds).map (· * ((c.timescale / 1000 : Nat) : Int))) := by
  obtain ⟨s, s1, s2, s3⟩ := stream_run hs hv ha sv sa
  exact ⟨s, _, s1, s2, s3, dtsRun_near c auds _ _ _ _, fun h => dtsRun_noAac c auds none 0 0 false (fun i hi => by simp at hi) h⟩

/-! ## AAC -/

theorem sync_aac {c : Conf} {rate : Nat} {i : Info} (hi : IsAac rate i) (hr : rate ≠ 0) (hm : c.margin * c.timescale / 1000 < 2 ^ 32) (base : Int) (samples : Nat) (dts : Int) :
    sync false c (some i) base samples dts = if -ticks c ≤ dts - (base + (samples * c.timescale / rate : Nat)) ∧ dts - (base + (samples * c.timescale / rate : Nat)) ≤ ticks c then
      (base, samples + 1024, base + (samples * c.timescale / rate : Nat)) else (dts, 1024, dts) := by
  unfold sync syncAudio
  rw [if_neg (by decide)]
  cases i with
  | video => exact hi.elim
  | audio codec _ _ _ _ r _ =>
    obtain ⟨h1, h2⟩ := hi
    subst h1 h2
    have e : ((c.margin * c.timescale / 1000 % 2 ^ 32 : Nat) : Int) = ticks c := by
      unfold ticks; rw [Nat.mod_eq_of_lt hm]
    have e1 : ¬ (1010 ≠ 1010) := fun h => h rfl
    simp only [if_neg e1, if_neg hr, e]
    by_cases hh : base + ((samples * c.timescale / r : Nat) : Int) - ticks c ≤ dts ∧ dts ≤ base + ((samples * c.timescale / r : Nat) : Int) + ticks c
    · rw [if_pos (by omega), if_pos (by omega)]
    · rw [if_neg (by omega), if_neg (by omega)]

/-- Times that stay near those of the samples are those of the samples. -/
theorem dtsRun_exact {c : Conf} {rate : Nat} (hr : rate ≠ 0) (hm : c.margin * c.timescale / 1000 < 2 ^ 32) : ∀ (ys : List Item) (i : Info) (base : Int) (samples : Nat) (told : Bool),
    IsAac rate i → (∀ y ∈ ys, IsAac rate y.info) →
    (∀ (k : Nat) (t : Int), (times ys)[k]? = some t → -ticks c ≤ t * ((c.timescale / 1000 : Nat) : Int) - (base + ((samples + 1024 * k) * c.timescale / rate : Nat)) ∧
      t * ((c.timescale / 1000 : Nat) : Int) - (base + ((samples + 1024 * k) * c.timescale / rate : Nat)) ≤ ticks c) →
    dtsRun false c (some i) base samples told ys = (List.range (times ys).length).map fun k => base + (((samples + 1024 * k) * c.timescale / rate : Nat) : Int) := by
  intro ys
  induction ys with
  | nil => intros; rfl
  | cons y ys ih =>
    intro i base samples told hi hn hk
    have hn' := fun z hz => hn z (List.mem_cons_of_mem _ hz)
    unfold dtsRun
    cases hy : y.tag with
    | config d =>
      have hf : y.full = false := by unfold Item.full; rw [hy]
      have : times (y :: ys) = times ys := by simp [times, hf]
      rw [this] at hk ⊢
      exact ih _ _ _ _ hi hn' hk
    | frame key delay d =>
      by_cases hd : d = []
      · have hf : y.full = false := by unfold Item.full; rw [hy]; simp [hd]
        have : times (y :: ys) = times ys := by simp [times, hf]
        rw [this] at hk ⊢
        simp only [if_pos hd]
        exact ih _ _ _ _ hi hn' hk
      · have hf : y.full = true := by unfold Item.full; rw [hy]; simp [hd]
        have : times (y :: ys) = y.time :: times ys := by simp [times, hf]
        rw [this] at hk ⊢
        simp only [if_neg hd]
        have h0 := hk 0 y.time rfl
        rw [Nat.mul_zero, Nat.add_zero] at h0
        rw [sync_aac hi hr hm, if_pos h0, List.length_cons, List.range_succ_eq_map, List.map_cons, List.map_map, Nat.mul_zero, Nat.add_zero]
        refine congrArg (_ :: ·) ?_
        obtain ⟨j, hj, hja⟩ : ∃ j, (if told then some i else some y.info) = some j ∧ IsAac rate j := by
          cases told with
          | true => exact ⟨i, rfl, hi⟩
          | false => exact ⟨y.info, rfl, hn y List.mem_cons_self⟩
        rw [hj]
        have hadd : ∀ k, samples + 1024 + 1024 * k = samples + 1024 * (k + 1) := fun k => by omega
        simp only []
        rw [ih j base (samples + 1024) true hja hn' (fun k t h => by rw [hadd]; exact hk (k + 1) t h)]
        refine List.map_congr_left fun k _ => ?_
        simp only [Function.comp, Nat.succ_eq_add_one, hadd]

theorem dtsRun_first {c : Conf} {rate : Nat} (hr : rate ≠ 0) (hm : c.margin * c.timescale / 1000 < 2 ^ 32) : ∀ (ys : List Item) (i : Info) (told : Bool) (t : Int) (ts : List Int),
    IsAac rate i → (∀ y ∈ ys, IsAac rate y.info) → times ys = t :: ts → ticks c < t * ((c.timescale / 1000 : Nat) : Int) →
    (∀ (k : Nat) (u : Int), (t :: ts)[k]? = some u → -ticks c ≤ u * ((c.timescale / 1000 : Nat) : Int) - (t * ((c.timescale / 1000 : Nat) : Int) + (1024 * k * c.timescale / rate : Nat)) ∧
      u * ((c.timescale / 1000 : Nat) : Int) - (t * ((c.timescale / 1000 : Nat) : Int) + (1024 * k * c.timescale / rate : Nat)) ≤ ticks c) →
    dtsRun false c (some i) 0 0 told ys = exact c.timescale rate (ts.length + 1) (t * ((c.timescale / 1000 : Nat) : Int)) := by
  intro ys
  induction ys with
  | nil => intro i told t ts _ _ h; simp [times] at h
  | cons y ys ih =>
    intro i told t ts hi hn ht hgt hk
    have hn' := fun z hz => hn z (List.mem_cons_of_mem _ hz)
    unfold dtsRun
    cases hy : y.tag with
    | config d =>
      have hf : y.full = false := by unfold Item.full; rw [hy]
      have : times (y :: ys) = times ys := by simp [times, hf]
      rw [this] at ht
      exact ih _ _ _ _ hi hn' ht hgt hk
    | frame key delay d =>
      by_cases hd : d = []
      · have hf : y.full = false := by unfold Item.full; rw [hy]; simp [hd]
        have : times (y :: ys) = times ys := by simp [times, hf]
        rw [this] at ht
        simp only [if_pos hd]
        exact ih _ _ _ _ hi hn' ht hgt hk
      · have hf : y.full = true := by unfold Item.full; rw [hy]; simp [hd]
        have : times (y :: ys) = y.time :: times ys := by simp [times, hf]
        rw [this, List.cons.injEq] at ht
        obtain ⟨ht1, ht2⟩ := ht
        simp only [if_neg hd]
        rw [ht1, sync_aac hi hr hm, if_neg (by rw [Nat.zero_mul, Nat.zero_div]; simp only [Int.ofNat_zero, Int.zero_add, Int.sub_zero]; omega)]
        obtain ⟨j, hj, hja⟩ : ∃ j, (if told then some i else some y.info) = some j ∧ IsAac rate j := by
          cases told with
          | true => exact ⟨i, rfl, hi⟩
          | false => exact ⟨y.info, rfl, hn y List.mem_cons_self⟩
        rw [hj]
        have hadd : ∀ k, 1024 + 1024 * k = 1024 * (k + 1) := fun k => by omega
        simp only []
        rw [dtsRun_exact hr hm ys j _ 1024 true hja hn' (fun k u h => by rw [hadd]; exact hk (k + 1) u (by rw [← ht2]; exact h)), ht2]
        unfold exact
        rw [List.range_succ_eq_map, List.map_cons, List.map_map]
        refine congr (congrArg List.cons ?_) ?_
        · simp
        · refine List.map_congr_left fun k _ => ?_
          simp only [Function.comp, Nat.succ_eq_add_one, hadd]

theorem dtsRun_start {c : Conf} {rate : Nat} (hr : rate ≠ 0) (hm : c.margin * c.timescale / 1000 < 2 ^ 32) : ∀ (ys : List Item) (t0 t : Int) (ts : List Int),
    (∀ y ∈ ys, IsAac rate y.info) → times ys = t0 :: t :: ts → ticks c < t * ((c.timescale / 1000 : Nat) : Int) →
    (∀ (k : Nat) (u : Int), (t :: ts)[k]? = some u → -ticks c ≤ u * ((c.timescale / 1000 : Nat) : Int) - (t * ((c.timescale / 1000 : Nat) : Int) + (1024 * k * c.timescale / rate : Nat)) ∧
      u * ((c.timescale / 1000 : Nat) : Int) - (t * ((c.timescale / 1000 : Nat) : Int) + (1024 * k * c.timescale / rate : Nat)) ≤ ticks c) →
    dtsRun false c none 0 0 false ys = t0 * ((c.timescale / 1000 : Nat) : Int) :: exact c.timescale rate (ts.length + 1) (t * ((c.timescale / 1000 : Nat) : Int)) := by
  intro ys
  induction ys with
  | nil => intro t0 t ts _ h; simp [times] at h
  | cons y ys ih =>
    intro t0 t ts hn ht hgt hk
    have hn' := fun z hz => hn z (List.mem_cons_of_mem _ hz)
    unfold dtsRun
    cases hy : y.tag with
    | config d =>
      have hf : y.full = false := by unfold Item.full; rw [hy]
      have : times (y :: ys) = times ys := by simp [times, hf]
      rw [this] at ht
      exact ih _ _ _ hn' ht hgt hk
    | frame key delay d =>
      by_cases hd : d = []
      · have hf : y.full = false := by unfold Item.full; rw [hy]; simp [hd]
        have : times (y :: ys) = times ys := by simp [times, hf]
        rw [this] at ht
        simp only [if_pos hd]
        exact ih _ _ _ hn' ht hgt hk
      · have hf : y.full = true := by unfold Item.full; rw [hy]; simp [hd]
        have : times (y :: ys) = y.time :: times ys := by simp [times, hf]
        rw [this, List.cons.injEq] at ht
        obtain ⟨ht1, ht2⟩ := ht
        simp only [if_neg hd]
        rw [ht1, sync_noAac (fun i h => by simp at h)]
        refine congrArg (_ :: ·) ?_
        exact dtsRun_first hr hm ys y.info true t ts (hn y List.mem_cons_self) hn' ht2 hgt hk

/-- Whole milliseconds are near whole ticks. -/
theorem source_near {rate : Nat} (hr : rate ≠ 0) (A k s : Nat) :
    (A + 1024000 * k) / rate * s ≤ A / rate * s + 1024 * k * (1000 * s) / rate + s ∧ A / rate * s + 1024 * k * (1000 * s) / rate ≤ (A + 1024000 * k) / rate * s + s := by
  have hr' : 0 < rate := Nat.pos_of_ne_zero hr
  have a1 := Nat.div_mul_le_self A rate
  have a2 := Nat.lt_div_mul_add (a := A) hr'
  have b1 := Nat.div_mul_le_self (A + 1024000 * k) rate
  have b2 := Nat.lt_div_mul_add (a := A + 1024000 * k) hr'
  have q1 := Nat.div_mul_le_self (1024 * k * (1000 * s)) rate
  have q2 := Nat.lt_div_mul_add (a := 1024 * k * (1000 * s)) hr'
  obtain ⟨T1, hT1⟩ : ∃ T, T = A / rate := ⟨_, rfl⟩
  obtain ⟨T, hT⟩ : ∃ T, T = (A + 1024000 * k) / rate := ⟨_, rfl⟩
  obtain ⟨q, hq⟩ : ∃ T, T = 1024 * k * (1000 * s) / rate := ⟨_, rfl⟩
  rw [← hT1] at a1 a2 ⊢
  rw [← hT] at b1 b2 ⊢
  rw [← hq] at q1 q2 ⊢
  have e : 1024 * k * (1000 * s) = 1024000 * k * s := by
    rw [Nat.mul_mul_mul_comm, ← Nat.mul_assoc]
  rw [e] at q1 q2
  have c1 := Nat.mul_le_mul_right s a1
  have c2 := Nat.mul_le_mul_right s (Nat.le_of_lt a2)
  have d1 := Nat.mul_le_mul_right s b1
  have d2 := Nat.mul_le_mul_right s (Nat.le_of_lt b2)
  rw [Nat.add_mul] at c2 d1 d2
  rw [Nat.add_mul] at d2
  have m1 : T1 * rate * s = T1 * s * rate := by rw [Nat.mul_assoc, Nat.mul_comm rate, ← Nat.mul_assoc]
  have m2 : T * rate * s = T * s * rate := by rw [Nat.mul_assoc, Nat.mul_comm rate, ← Nat.mul_assoc]
  rw [m1] at c1 c2
  rw [m2] at d1 d2
  rw [Nat.mul_comm rate s] at c2 d2
  constructor
  · refine Nat.le_of_lt_succ (Nat.lt_of_mul_lt_mul_right (a := rate) ?_)
    rw [Nat.succ_mul, Nat.add_mul, Nat.add_mul]
    omega
  · refine Nat.le_of_mul_le_mul_right (c := rate) ?_ hr'
    rw [Nat.add_mul, Nat.add_mul]
    omega

/-- **C115** (part). The times of AAC frames with whole milliseconds are sent with the exact times of their samples, from the second frame on. Missing: the
first frame (`not_exact`). -/
theorem aac_partial {c : Conf} {xs : List Input} {vids auds : List Item} {rate a n : Nat} (hs : c.timescale / 1000 ≤ 255)
    (hv : AllCarry true c.timescale (xs.filter fun x => x.msg.type == 9) vids) (ha : AllCarry false c.timescale (xs.filter fun x => x.msg.type == 8) auds)
    (sv : Steady (times vids)) (sa : Steady (times auds)) (h1000 : c.timescale % 1000 = 0) (hm1 : 1 ≤ c.margin) (hm : c.margin * c.timescale / 1000 < 2 ^ 32)
    (hpos : 0 < c.timescale) (hr : rate ≠ 0) (haac : ∀ y ∈ auds, IsAac rate y.info) (ht : times auds = source rate a (n + 2)) (hlate : c.margin < (a + 1024000) / rate) :
    ∃ s, avs c {} xs = .ok s ∧ s.audioOut = packets (c.timescale / 1000) {} auds
      ((a / rate * (c.timescale / 1000) : Nat) :: exact c.timescale rate (n + 1) (((a + 1024000) / rate * (c.timescale / 1000) : Nat) : Int)) := by
  obtain ⟨s, s1, -, s3⟩ := stream_run hs hv ha sv sa
  refine ⟨s, s1, ?_⟩
  rw [s3]
  obtain ⟨q, hq⟩ : ∃ q, c.timescale = 1000 * q := ⟨c.timescale / 1000, by omega⟩
  have hq' : c.timescale / 1000 = q := by omega
  have hqp : 0 < q := by omega
  have htk : ticks c = ((c.margin * q : Nat) : Int) := by
    unfold ticks
    rw [hq, ← Nat.mul_assoc, Nat.mul_comm c.margin, Nat.mul_assoc, Nat.mul_div_cancel_left _ (by decide)]
  have hsplit : source rate a (n + 2) = ((a / rate : Nat) : Int) :: (((a + 1024000) / rate : Nat) : Int) ::
      (List.range n).map fun i => (((a + 1024000 + 1024000 * (i + 1)) / rate : Nat) : Int) := by
    unfold source
    rw [List.range_succ_eq_map, List.map_cons, List.map_map, List.range_succ_eq_map, List.map_cons, List.map_map]
    refine congr (congrArg List.cons (by simp)) (congr (congrArg List.cons (by simp)) (List.map_congr_left fun i _ => ?_))
    simp only [Function.comp, Nat.succ_eq_add_one]
    refine congrArg (fun z : Nat => ((z / rate : Nat) : Int)) (by omega)
  rw [hsplit] at ht
  have hms : q ≤ c.margin * q := Nat.le_mul_of_pos_left q (by omega)
  rw [dtsRun_start hr hm auds _ _ _ haac ht ?_ ?_]
  · simp only [List.length_map, List.length_range, Int.natCast_mul]
  · rw [htk, hq', ← Int.natCast_mul]
    exact Int.ofNat_lt.2 (Nat.mul_lt_mul_of_pos_right hlate hqp)
  · intro k u hu
    have hu' : u = (((a + 1024000 + 1024000 * k) / rate : Nat) : Int) := by
      cases k with
      | zero => simpa using hu.symm
      | succ k =>
        rw [List.getElem?_cons_succ, List.getElem?_map, Option.map_eq_some_iff] at hu
        obtain ⟨j, hj, hj'⟩ := hu
        obtain ⟨hlt, hj⟩ := List.getElem?_eq_some_iff.1 hj
        rw [List.getElem_range] at hj
        rw [← hj', hj]
    obtain ⟨n1, n2⟩ := source_near hr (a + 1024000) k q
    rw [hu', hq', hq, htk, ← Int.natCast_mul, ← Int.natCast_mul]
    omega

end Verif.RtmpKmp
