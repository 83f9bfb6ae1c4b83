import Verif.AckSpec

/-!
# Frame histories as lists of durations

Helper lemmas: what the run-length coded `Hist` does in terms of the list of durations it stands for.
-/

namespace Verif.Ack

open Spec

/-- The durations a list of runs stands for. -/
def expand (q : List Run) : List Nat :=
  q.flatMap fun r => List.replicate r.counter.toNat r.val.toNat

/-- A run that no operation overflows on. -/
def Run.Ok (r : Run) : Prop :=
  0 ≤ r.val ∧ r.val < 2 ^ 31 ∧ 0 ≤ r.counter ∧ r.counter < 2 ^ 31

@[simp] theorem expand_nil : expand [] = [] := rfl

theorem expand_cons (r : Run) (q : List Run) :
    expand (r :: q) = List.replicate r.counter.toNat r.val.toNat ++ expand q := rfl

theorem expand_append (q q' : List Run) : expand (q ++ q') = expand q ++ expand q' := by
  simp [expand]

theorem sum_replicate (n v : Nat) : (List.replicate n v).sum = n * v := by
  induction n with
  | zero => simp
  | succ n ih => rw [List.replicate_succ, List.sum_cons, ih, Nat.succ_mul]; omega

theorem u64_of {x : Int} (h0 : 0 ≤ x) (h1 : x < 2 ^ 64) : ((u64 x : Nat) : Int) = x := by
  unfold u64; omega

theorem u64_nat {n : Nat} (h : n < 2 ^ 64) : u64 (n : Int) = n := by
  unfold u64; omega

theorem i64_of {x : Int} (h0 : -(2 ^ 63) ≤ x) (h1 : x < 2 ^ 63) : i64 x = x := by
  unfold i64; rw [Int.bmod_def]; omega

theorem i32_of {x : Int} (h0 : -(2 ^ 31) ≤ x) (h1 : x < 2 ^ 31) : i32 x = x := by
  unfold i32; rw [Int.bmod_def]; omega

theorem chk32_of {x : Int} (h0 : -(2 ^ 31) ≤ x) (h1 : x < 2 ^ 31) : chk32 x = .ok x := by
  unfold chk32; rw [if_pos ⟨h0, h1⟩]

theorem sum_drop (d : List Nat) (k : Nat) : start d k + (d.drop k).sum = d.sum := by
  unfold start
  rw [← List.sum_append, List.take_append_drop]

theorem start_le (d : List Nat) (k : Nat) : start d k ≤ d.sum := by
  have := sum_drop d k; omega

theorem start_mono (d : List Nat) {j k : Nat} (h : j ≤ k) : start d j ≤ start d k := by
  have e : d.take j = (d.take k).take j := by rw [List.take_take, Nat.min_eq_left h]
  unfold start
  rw [e]
  exact start_le _ _

theorem start_add (d : List Nat) (j k : Nat) : start d (j + k) = start d j + start (d.drop j) k := by
  unfold start
  rw [List.take_add, List.sum_append]

theorem start_append (d d' : List Nat) {k : Nat} (h : k ≤ d.length) :
    start (d ++ d') k = start d k := by
  unfold start
  rw [List.take_append_of_le_length h]

theorem start_append_add (d d' : List Nat) (k : Nat) :
    start (d ++ d') (d.length + k) = d.sum + start d' k := by
  unfold start
  rw [List.take_length_add_append, List.sum_append]

theorem start_length (d : List Nat) : start d d.length = d.sum := by
  unfold start; rw [List.take_length]

theorem start_succ (d : List Nat) {k : Nat} (h : k < d.length) : start d (k + 1) = start d k + d[k] := by
  unfold start
  rw [List.take_succ_eq_append_getElem h, List.sum_append]; simp

/-- The product of a good run, as natural numbers. -/
theorem Run.Ok.prod {r : Run} (h : r.Ok) :
    r.counter * r.val = ((r.counter.toNat * r.val.toNat : Nat) : Int) := by
  obtain ⟨h1, -, h3, -⟩ := h
  rw [Int.natCast_mul, Int.toNat_of_nonneg h1, Int.toNat_of_nonneg h3]

theorem unsnoc_nil : unsnoc [] = none := rfl

theorem unsnoc_append (q : List Run) (r : Run) : unsnoc (q ++ [r]) = some (q, r) := by
  unfold unsnoc
  simp

/-- A list is empty or has a last run. -/
theorem snoc_cases (q : List Run) : q = [] ∨ ∃ i r, q = i ++ [r] := by
  by_cases h : q = []
  · exact .inl h
  · exact .inr ⟨q.dropLast, q.getLast h, (List.dropLast_concat_getLast h).symm⟩

/-- `head?` after the last run was counted up or a run was added. -/
def HeadVal (q q' : List Run) (dur : Int) : Prop :=
  match q with
  | [] => ∃ r t, q' = r :: t ∧ r.val = dur
  | r :: _ => ∃ r' t, q' = r' :: t ∧ r'.val = r.val

theorem HeadVal_append (q t : List Run) (hq : q ≠ []) (dur : Int) : HeadVal q (q ++ t) dur := by
  cases q with
  | nil => exact absurd rfl hq
  | cons r q => exact ⟨r, q ++ t, rfl, rfl⟩

theorem HeadVal_last (i : List Run) (r r' : Run) (h : r'.val = r.val) (dur : Int) :
    HeadVal (i ++ [r]) (i ++ [r']) dur := by
  cases i with
  | nil => exact ⟨r', [], rfl, h⟩
  | cons a i => exact ⟨a, i ++ [r'], rfl, rfl⟩

theorem bump_ok {q : List Run} {dur : Nat} (hok : ∀ r ∈ q, r.Ok) (hd : 0 < dur)
    (hs : (expand q).sum + dur < 2 ^ 31) :
    ∃ q', bump q dur = .ok q' ∧ (∀ r ∈ q', r.Ok) ∧ expand q' = expand q ++ [dur] ∧
      HeadVal q q' dur ∧ (∀ D : Int, D = dur → (∀ r ∈ q, r.val = D) → ∀ r ∈ q', r.val = D) := by
  have one : (⟨(dur : Int), 1⟩ : Run).Ok := ⟨by simp, by simp; omega, by simp, by simp⟩
  rcases snoc_cases q with rfl | ⟨i, r, rfl⟩
  · refine ⟨[⟨dur, 1⟩], rfl, ?_, ?_, ⟨_, _, rfl, rfl⟩, ?_⟩
    · simpa using one
    · simp [expand]
    · intro D hD _; simp [hD]
  · unfold bump
    rw [unsnoc_append]
    by_cases hv : r.val = dur
    · have hr : r.Ok := hok r (by simp)
      have hr' := hr
      obtain ⟨h1, h2, h3, h4⟩ := hr
      have hn : r.counter.toNat ≤ r.counter.toNat * r.val.toNat := by
        have : 0 < r.val.toNat := by omega
        exact Nat.le_mul_of_pos_right _ this
      have hsum : r.counter.toNat * r.val.toNat ≤ (expand (i ++ [r])).sum := by
        rw [expand_append, List.sum_append, expand_cons, List.sum_append, sum_replicate]
        simp only [expand_nil, List.sum_nil]; omega
      simp only [ne_eq, hv, not_true_eq_false, if_false]
      rw [chk32_of (by omega) (by omega)]
      refine ⟨i ++ [⟨r.val, r.counter + 1⟩], by rw [hv]; rfl, ?_, ?_, HeadVal_last i r ⟨r.val, r.counter + 1⟩ rfl _, ?_⟩
      · intro x hx
        simp only [List.mem_append, List.mem_singleton] at hx
        rcases hx with hx | rfl
        · exact hok x (by simp [hx])
        · refine ⟨h1, h2, ?_, ?_⟩ <;> simp only <;> omega
      · rw [expand_append, expand_append, List.append_assoc, expand_cons, expand_cons]
        simp only [expand_nil, List.append_nil]
        congr 1
        have e1 : (r.counter + 1).toNat = r.counter.toNat + 1 := by omega
        have e2 : r.val.toNat = dur := by omega
        rw [e1, e2, List.replicate_succ']
      · intro D hD hq x hx
        simp only [List.mem_append, List.mem_singleton] at hx
        rcases hx with hx | rfl
        · exact hq x (by simp [hx])
        · simp only; omega
    · simp only [ne_eq, hv, not_false_eq_true, if_true]
      refine ⟨_, rfl, ?_, ?_, HeadVal_append _ _ (by simp) _, ?_⟩
      · intro x hx
        rw [List.mem_append, List.mem_singleton] at hx
        rcases hx with hx | rfl
        · exact hok x hx
        · exact one
      · rw [expand_append _ [(⟨(dur : Int), 1⟩ : Run)]]; simp [expand_cons]
      · intro D hD hq x hx
        rw [List.mem_append, List.mem_singleton] at hx
        rcases hx with hx | rfl
        · exact hq x hx
        · exact hD.symm

/-- Adding the next frame, after `gap` missing frames. -/
theorem addFrame_ok {h : Hist} {fd dur gap : Nat} (hok : ∀ r ∈ h.q, r.Ok) (hd : 0 < dur)
    (hs : (expand h.q).sum + dur < 2 ^ 31) (hg : gap < 2 ^ 30) (hfd : fd < 2 ^ 63)
    (hl : fd = h.last + gap + 1 ∨ (fd = h.last ∧ gap = 0)) (hq : gap ≠ 0 → h.q ≠ []) :
    ∃ q', h.addFrame fd dur = .ok ⟨q', h.base, fd, h.off⟩ ∧ (∀ r ∈ q', r.Ok) ∧
      expand q' = expand h.q ++ (List.replicate gap 0 ++ [dur]) ∧ HeadVal h.q q' dur ∧
      (gap = 0 → ∀ D : Int, D = dur → (∀ r ∈ h.q, r.val = D) → ∀ r ∈ q', r.val = D) := by
  have hc : i32 (u64 ((fd : Int) - h.last)) = (fd : Int) - h.last := by
    rw [u64_of (by omega) (by omega), i32_of (by omega) (by omega)]
  have hlast : u64 ((h.last : Int) + ((fd : Int) - h.last)) = fd := by
    have : (h.last : Int) + ((fd : Int) - h.last) = fd := by omega
    rw [this, u64_nat (by omega)]
  have hgo : ∀ q q', discont h.q ((fd : Int) - h.last) dur = .ok q → bump q dur = .ok q' →
      h.addFrame fd dur = .ok ⟨q', h.base, fd, h.off⟩ := by
    intro q q' h1 h2
    unfold Hist.addFrame
    simp only [hc, h1, h2, hlast, Res.bind_ok]
  by_cases hg0 : gap = 0
  · have hdc : discont h.q ((fd : Int) - h.last) dur = .ok h.q := by
      unfold discont
      rw [if_neg (by omega), if_neg (by omega)]
    obtain ⟨q', h1, h2, h3, h4, h5⟩ := bump_ok hok hd hs
    refine ⟨q', hgo _ _ hdc h1, h2, ?_, h4, fun _ => h5⟩
    rw [h3, hg0]; simp
  · have hdc : discont h.q ((fd : Int) - h.last) dur
        = .ok (h.q ++ [⟨0, gap⟩]) := by
      unfold discont
      rw [if_neg (by omega), if_pos (by omega)]
      have : ((fd : Int) - h.last) - 1 = gap := by omega
      rw [this]
    have hok' : ∀ r ∈ h.q ++ [⟨0, (gap : Int)⟩], r.Ok := by
      intro x hx
      rw [List.mem_append, List.mem_singleton] at hx
      rcases hx with hx | rfl
      · exact hok x hx
      · refine ⟨?_, ?_, ?_, ?_⟩ <;> simp only <;> omega
    have hex : expand (h.q ++ [⟨0, (gap : Int)⟩]) = expand h.q ++ List.replicate gap 0 := by
      rw [expand_append]; simp [expand_cons]
    obtain ⟨q', h1, h2, h3, h4, -⟩ := bump_ok (dur := dur) hok' hd
      (by rw [hex, List.sum_append, sum_replicate]; omega)
    refine ⟨q', hgo _ _ hdc h1, h2, ?_, ?_, fun h0 => absurd h0 hg0⟩
    · rw [h3, hex, List.append_assoc]
    · have hne := hq hg0
      cases hh : h.q with
      | nil => exact absurd hh hne
      | cons r t =>
        rw [hh] at h4
        exact h4

/-- The offset of a frame. -/
theorem offsetGo_ok : ∀ (q : List Run) (k : Nat) (lo hi : Int), (∀ r ∈ q, r.Ok) →
    (expand q).sum < 2 ^ 31 → k ≤ (expand q).length → k < 2 ^ 63 → 0 ≤ lo → lo + (expand q).sum < 2 ^ 62 →
    ∃ hi', offsetGo q k lo hi = .ok (lo + start (expand q) k, hi') ∧
      (q ≠ [] → ∃ r ∈ q, hi' = lo + start (expand q) k + r.val)
  | [], k, lo, hi, _, _, hk, _, _, _ => by
    simp only [expand_nil, List.length_nil, Nat.le_zero] at hk
    exact ⟨hi, by simp [offsetGo, start], by simp⟩
  | r :: q, k, lo, hi, hok, hs, hk, hk2, h0, h1 => by
    have hr := hok r (by simp)
    have hp := hr.prod
    obtain ⟨a1, a2, a3, a4⟩ := hr
    rw [expand_cons, List.sum_append, sum_replicate] at hs h1
    have hu : u64 r.counter = r.counter.toNat := by unfold u64; omega
    unfold offsetGo
    rw [hu]
    by_cases hle : k ≤ r.counter.toNat
    · rw [if_pos hle]
      have hst : start (expand (r :: q)) k = k * r.val.toNat := by
        rw [expand_cons, start_append _ _ (by simpa using hle)]
        unfold start
        rw [List.take_replicate, Nat.min_eq_left hle, sum_replicate]
      have hle' : k * r.val.toNat ≤ r.counter.toNat * r.val.toNat := Nat.mul_le_mul_right _ hle
      have e : (k : Int) * r.val = ((k * r.val.toNat : Nat) : Int) := by
        rw [Int.natCast_mul, Int.toNat_of_nonneg a1]
      have i1 : i64 (lo + (k : Int) * r.val) = lo + ((k * r.val.toNat : Nat) : Int) := by
        rw [e]; exact i64_of (by omega) (by omega)
      simp only
      rw [i1, i64_of (by omega) (by omega), hst]
      exact ⟨_, rfl, fun _ => ⟨r, by simp, rfl⟩⟩
    · rw [if_neg hle]
      have hp' : r.val * r.counter = ((r.counter.toNat * r.val.toNat : Nat) : Int) := by
        rw [Int.mul_comm]; exact hp
      have hu2 : u64 ((k : Int) - r.counter) = k - r.counter.toNat := by unfold u64; omega
      rw [hp', chk32_of (by omega) (by omega), Res.bind_ok, hu2, i64_of (by omega) (by omega)]
      rw [expand_cons, List.length_append, List.length_replicate] at hk
      obtain ⟨hi', g1, g2⟩ := offsetGo_ok q (k - r.counter.toNat)
        (lo + ((r.counter.toNat * r.val.toNat : Nat) : Int)) hi
        (fun x hx => hok x (by simp [hx])) (by omega) (by omega) (by omega) (by omega) (by omega)
      have hst : start (expand (r :: q)) k
          = r.counter.toNat * r.val.toNat + start (expand q) (k - r.counter.toNat) := by
        have e : k = (List.replicate r.counter.toNat r.val.toNat).length + (k - r.counter.toNat) := by
          rw [List.length_replicate]; omega
        rw [expand_cons]
        conv => lhs; rw [e]
        rw [start_append_add, sum_replicate]
      rw [g1, hst]
      refine ⟨hi', by rw [Int.natCast_add, Int.add_assoc], fun _ => ?_⟩
      have hne : q ≠ [] := by
        rintro rfl
        simp at hk
        omega
      obtain ⟨x, hx, e⟩ := g2 hne
      exact ⟨x, by simp [hx], by rw [e, Int.natCast_add, Int.add_assoc lo]⟩

/-- The frame at an offset. -/
theorem frameGo_ok : ∀ (q : List Run) (off w : Nat), (∀ r ∈ q, r.Ok) →
    (expand q).sum < 2 ^ 31 → off ≤ (expand q).sum → w + (expand q).length < 2 ^ 63 →
    (0 < off ∨ ∃ r t, q = r :: t ∧ 0 < r.val) →
    ∃ k o, frameGo q off w = .ok (w + k, o) ∧ k ≤ (expand q).length ∧
      start (expand q) k + o = off ∧ (o = 0 ∨ ∃ h : k < (expand q).length, o < (expand q)[k]) ∧
      (∀ j, k = j + 1 → 0 < o ∨ ∀ h : j < (expand q).length, 0 < (expand q)[j])
  | [], off, w, _, _, ho, _, hz => by
    rcases hz with hz | ⟨r, t, h, -⟩
    · simp at ho; omega
    · cases h
  | r :: q, off, w, hok, hs, ho, hw, hz => by
    have hr := hok r (by simp)
    have hp := hr.prod
    obtain ⟨a1, a2, a3, a4⟩ := hr
    have hs' := hs
    rw [expand_cons, List.sum_append, sum_replicate] at hs' ho
    have hw' := hw
    rw [expand_cons, List.length_append, List.length_replicate] at hw'
    unfold frameGo
    rw [hp, chk32_of (by omega) (by omega), Res.bind_ok]
    by_cases hle : off ≤ r.counter.toNat * r.val.toNat
    · rw [if_pos (by omega)]
      have hv : 0 < r.val := by
        rcases hz with hz | ⟨r', t, h, hv⟩
        · rcases Nat.eq_zero_or_pos r.val.toNat with h | h
          · rw [h] at hle; omega
          · omega
        · cases h; exact hv
      rw [if_neg (by omega)]
      have hv' : 0 < r.val.toNat := by omega
      have hk : off / r.val.toNat ≤ r.counter.toNat := by
        apply Nat.div_le_of_le_mul
        rw [Nat.mul_comm]; exact hle
      have hdm := Nat.div_add_mod off r.val.toNat
      have hml := Nat.mod_lt off hv'
      have ht : (off : Int).tdiv r.val = ((off / r.val.toNat : Nat) : Int) := by
        have : r.val = (r.val.toNat : Int) := by omega
        conv => lhs; rw [this]
        rw [← Int.ofNat_tdiv]
      have hu : u64 ((off : Int).tdiv r.val) = off / r.val.toNat := by
        rw [ht]; exact u64_nat (by omega)
      have hu2 : u64 ((off : Int) - ((off / r.val.toNat : Nat) : Int) * r.val) = off % r.val.toNat := by
        have e : ((off / r.val.toNat : Nat) : Int) * r.val
            = ((r.val.toNat * (off / r.val.toNat) : Nat) : Int) := by
          rw [Int.natCast_mul, Int.toNat_of_nonneg a1, Int.mul_comm]
        rw [e]
        unfold u64; omega
      have hu3 : u64 ((w : Int) + ((off / r.val.toNat : Nat) : Int)) = w + off / r.val.toNat := by
        unfold u64; omega
      simp only [hu, hu2, hu3]
      refine ⟨off / r.val.toNat, off % r.val.toNat, rfl, ?_, ?_, ?_, ?_⟩
      · rw [expand_cons, List.length_append, List.length_replicate]; omega
      · rw [expand_cons, start_append _ _ (by simpa using hk)]
        unfold start
        rw [List.take_replicate, Nat.min_eq_left hk, sum_replicate, Nat.mul_comm]
        exact hdm
      · by_cases hkc : off / r.val.toNat < r.counter.toNat
        · right
          have hlt : off / r.val.toNat < (expand (r :: q)).length := by
            rw [expand_cons, List.length_append, List.length_replicate]; omega
          refine ⟨hlt, ?_⟩
          have : (expand (r :: q))[off / r.val.toNat] = r.val.toNat := by
            simp only [expand_cons]
            rw [List.getElem_append_left (by simpa using hkc), List.getElem_replicate]
          omega
        · left
          have e : off / r.val.toNat = r.counter.toNat := by omega
          rw [e, Nat.mul_comm] at hdm
          omega
      · intro j hj
        right
        intro h
        have : (expand (r :: q))[j] = r.val.toNat := by
          simp only [expand_cons]
          rw [List.getElem_append_left (by rw [List.length_replicate]; omega), List.getElem_replicate]
        rw [this]; exact hv'
    · rw [if_neg (by omega)]
      have e1 : ((off : Int) - ((r.counter.toNat * r.val.toNat : Nat) : Int))
          = ((off - r.counter.toNat * r.val.toNat : Nat) : Int) := by omega
      have e2 : u64 ((w : Int) + r.counter) = w + r.counter.toNat := by unfold u64; omega
      rw [e1, e2]
      obtain ⟨k, o, g1, g2, g3, g4, g5⟩ := frameGo_ok q (off - r.counter.toNat * r.val.toNat)
        (w + r.counter.toNat) (fun x hx => hok x (by simp [hx])) (by omega) (by omega) (by omega)
        (.inl (by omega))
      refine ⟨r.counter.toNat + k, o, by rw [g1, Nat.add_assoc], ?_, ?_, ?_, ?_⟩
      · rw [expand_cons, List.length_append, List.length_replicate]; omega
      · have : r.counter.toNat + k = (List.replicate r.counter.toNat r.val.toNat).length + k := by
          rw [List.length_replicate]
        rw [expand_cons, this, start_append_add, sum_replicate]; omega
      · rcases g4 with g4 | ⟨g4, g5⟩
        · exact .inl g4
        · right
          have hlt : r.counter.toNat + k < (expand (r :: q)).length := by
            rw [expand_cons, List.length_append, List.length_replicate]; omega
          refine ⟨hlt, ?_⟩
          have : (expand (r :: q))[r.counter.toNat + k] = (expand q)[k] := by
            simp only [expand_cons]
            rw [List.getElem_append_right (by simp)]
            simp
          omega
      · intro j hj
        cases k with
        | zero =>
          left
          simp only [start, List.take_zero, List.sum_nil] at g3
          omega
        | succ k =>
          rcases g5 k rfl with g5 | g5
          · exact .inl g5
          · right
            intro h
            have : (expand (r :: q))[j] = (expand q)[k]'(by omega) := by
              simp only [expand_cons]
              rw [List.getElem_append_right (by rw [List.length_replicate]; omega)]
              congr 1
              rw [List.length_replicate]; omega
            rw [this]; exact g5 (by omega)

/-- Removing the first `m + 1` frames. -/
theorem removeGo_ok : ∀ (q : List Run) (base m : Nat) (off : Int), (∀ r ∈ q, r.Ok) →
    (expand q).sum < 2 ^ 31 → m < (expand q).length → base + (expand q).length < 2 ^ 63 →
    0 ≤ off → off + (expand q).sum < 2 ^ 62 → 0 < base →
    ∃ r t, removeGo q base off (base + m)
        = .ok (r :: t, base + m + 1, off + start (expand q) (m + 1)) ∧
      (∀ x ∈ r :: t, x.Ok) ∧ expand (r :: t) = (expand q).drop (m + 1) ∧
      (∀ h : m < (expand q).length, r.val = (expand q)[m]) ∧
      (∀ D : Int, (∀ x ∈ q, x.val = D) → ∀ x ∈ r :: t, x.val = D)
  | [], base, m, off, _, _, hm, _, _, _, _ => by simp at hm
  | r :: q, base, m, off, hok, hs, hm, hb, h0, h1, hb0 => by
    have hr := hok r (by simp)
    have hp := hr.prod
    obtain ⟨a1, a2, a3, a4⟩ := hr
    have hs' := hs
    rw [expand_cons, List.sum_append, sum_replicate] at hs' h1
    have hb' := hb
    have hm' := hm
    rw [expand_cons, List.length_append, List.length_replicate] at hb' hm'
    unfold removeGo
    have hu : u64 ((base : Int) + r.counter) = base + r.counter.toNat := by unfold u64; omega
    rw [hu]
    by_cases hle : m < r.counter.toNat
    · have hu2 : u64 (((base + r.counter.toNat : Nat) : Int) - 1) = base + r.counter.toNat - 1 := by
        unfold u64; omega
      rw [hu2, if_pos (by omega)]
      have hc : u64 (((u64 (((base + m : Nat) : Int) - base) : Nat) : Int) + 1) = m + 1 := by
        unfold u64; omega
      have hfd : u64 (((base + m : Nat) : Int) + 1) = base + m + 1 := by unfold u64; omega
      have hle' : (m + 1) * r.val.toNat ≤ r.counter.toNat * r.val.toNat := Nat.mul_le_mul_right _ hle
      have e : ((m + 1 : Nat) : Int) * r.val = (((m + 1) * r.val.toNat : Nat) : Int) := by
        rw [Int.natCast_mul, Int.toNat_of_nonneg a1]
      have hi : i64 (off + ((m + 1 : Nat) : Int) * r.val) = off + (((m + 1) * r.val.toNat : Nat) : Int) := by
        rw [e]; exact i64_of (by omega) (by omega)
      have hcnt : i32 (r.counter - ((m + 1 : Nat) : Int)) = r.counter - ((m + 1 : Nat) : Int) :=
        i32_of (by omega) (by omega)
      simp only [hc, hfd, hi, hcnt]
      refine ⟨⟨r.val, r.counter - ((m + 1 : Nat) : Int)⟩, q, ?_, ?_, ?_, ?_, ?_⟩
      · have hst : start (expand (r :: q)) (m + 1) = (m + 1) * r.val.toNat := by
          rw [expand_cons, start_append _ _ (by rw [List.length_replicate]; exact hle)]
          unfold start
          rw [List.take_replicate, Nat.min_eq_left hle, sum_replicate]
        rw [hst]
      · intro x hx
        rw [List.mem_cons] at hx
        rcases hx with rfl | hx
        · refine ⟨a1, a2, ?_, ?_⟩ <;> simp only <;> omega
        · exact hok x (by simp [hx])
      · rw [expand_cons, expand_cons, List.drop_append_of_le_length (by rw [List.length_replicate]; exact hle),
          List.drop_replicate]
        congr 2
        simp only; omega
      · intro h
        have : (expand (r :: q))[m] = r.val.toNat := by
          simp only [expand_cons]
          rw [List.getElem_append_left (by simpa using hle), List.getElem_replicate]
        rw [this]; simp only; omega
      · intro D hD x hx
        rw [List.mem_cons] at hx
        rcases hx with rfl | hx
        · exact hD r (by simp)
        · exact hD x (by simp [hx])
    · have hneg : ¬ (base + m ≤ u64 (((base + r.counter.toNat : Nat) : Int) - 1)) := by
        unfold u64; omega
      rw [if_neg hneg, hp, chk32_of (by omega) (by omega), Res.bind_ok, i64_of (by omega) (by omega)]
      obtain ⟨x, t, g1, g2, g3, g4, g5⟩ := removeGo_ok q (base + r.counter.toNat) (m - r.counter.toNat)
        (off + ((r.counter.toNat * r.val.toNat : Nat) : Int))
        (fun x hx => hok x (by simp [hx])) (by omega) (by omega) (by omega) (by omega) (by omega)
        (by omega)
      have e1 : base + r.counter.toNat + (m - r.counter.toNat) = base + m := by omega
      rw [e1] at g1
      have hst : start (expand (r :: q)) (m + 1)
          = r.counter.toNat * r.val.toNat + start (expand q) (m - r.counter.toNat + 1) := by
        have : m + 1 = (List.replicate r.counter.toNat r.val.toNat).length
            + (m - r.counter.toNat + 1) := by
          rw [List.length_replicate]; omega
        rw [expand_cons, this, start_append_add, sum_replicate]
      refine ⟨x, t, ?_, g2, ?_, ?_, ?_⟩
      · rw [g1, hst, Int.natCast_add, Int.add_assoc off]
      · rw [g3, expand_cons, List.drop_append, List.length_replicate, List.drop_replicate]
        have e2 : r.counter.toNat - (m + 1) = 0 := by omega
        have e3 : m + 1 - r.counter.toNat = m - r.counter.toNat + 1 := by omega
        rw [e2, e3]; rfl
      · intro h
        rw [g4 (by omega)]
        have : (expand (r :: q))[m] = (expand q)[m - r.counter.toNat]'(by omega) := by
          simp only [expand_cons]
          rw [List.getElem_append_right (by rw [List.length_replicate]; omega)]
          simp only [List.length_replicate]
        rw [this]
      · exact fun D hD => g5 D (fun y hy => hD y (by simp [hy]))

end Verif.Ack
