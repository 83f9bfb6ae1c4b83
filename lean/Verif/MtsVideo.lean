import Verif.MtsFilt
import Verif.MtsFrame

/-! # The filter of video, byte by byte -/

namespace Verif.Mts

/-- The bytes of calls. -/
def bytesOf : List Call → List UInt8
  | [] => []
  | .write b :: cs => b ++ bytesOf cs
  | _ :: cs => bytesOf cs

theorem bytesOf_append (a b : List Call) : bytesOf (a ++ b) = bytesOf a ++ bytesOf b := by
  induction a with
  | nil => rfl
  | cons c a ih => cases c <;> simp [bytesOf, ih]

theorem bytesOf_writes (ws : List (List UInt8)) : bytesOf (ws.map .write) = ws.flatten := by
  induction ws with
  | nil => rfl
  | cons w ws ih => simp [bytesOf, ih]

/-- One byte. -/
def Annexb.step (a : Annexb) (b : UInt8) : Res (Annexb × List UInt8) :=
  match a.state with
  | .size =>
    if a.lenLeft ≠ 0 then .ok ({ a with packetLeft := a.packetLeft * 256 + b.toNat, lenLeft := a.lenLeft - 1 }, [])
    else if a.packetLeft = 0 then .err
    else
      .ok (((a.nalType b).1.body [b]).1, bytesOf (a.nalType b).2 ++ bytesOf ((a.nalType b).1.body [b]).2.1)
  | _ => .ok ((a.body [b]).1, bytesOf (a.body [b]).2.1)

/-- Bytes. -/
def Annexb.steps : Annexb → List UInt8 → Res (Annexb × List UInt8)
  | a, [] => .ok (a, [])
  | a, b :: bs =>
    match a.step b with
    | .ok (a, out) => (Annexb.steps a bs).map fun r => (r.1, out ++ r.2)
    | .err => .err
    | .ub => .ub

theorem steps_append (a : Annexb) (x y : List UInt8) :
    a.steps (x ++ y) = match a.steps x with
      | .ok (a, out) => (Annexb.steps a y).map fun r => (r.1, out ++ r.2)
      | .err => .err
      | .ub => .ub := by
  induction x generalizing a with
  | nil => simp only [List.nil_append, Annexb.steps]; cases a.steps y <;> rfl
  | cons b x ih =>
    rw [List.cons_append, Annexb.steps, Annexb.steps]
    cases hs : a.step b with
    | ok r =>
      obtain ⟨a1, o1⟩ := r
      simp only
      rw [ih a1]
      cases a1.steps x with
      | ok r2 =>
        obtain ⟨a2, o2⟩ := r2
        simp only [Res.map]
        cases a2.steps y <;> simp
      | err => rfl
      | ub => rfl
    | err => rfl
    | ub => rfl

/-- In a NAL unit something is left of it. -/
def Annexb.Good (a : Annexb) : Prop := a.state ≠ .size → 0 < a.packetLeft

/-- Only writes, none of them empty. -/
def Writes (cs : List Call) : Prop := ∃ ws : List (List UInt8), cs = ws.map .write ∧ ∀ w ∈ ws, w ≠ []

theorem Writes.nil : Writes [] := ⟨[], rfl, by simp⟩
theorem Writes.one {w : List UInt8} (h : w ≠ []) : Writes [.write w] := ⟨[w], rfl, by simpa using h⟩
theorem Writes.append {a b : List Call} (ha : Writes a) (hb : Writes b) : Writes (a ++ b) := by
  obtain ⟨x, rfl, hx⟩ := ha
  obtain ⟨y, rfl, hy⟩ := hb
  exact ⟨x ++ y, by simp, fun w hw => by rcases List.mem_append.mp hw with h | h; exact hx w h; exact hy w h⟩

theorem body_good (a : Annexb) (bs : List UInt8) : (a.body bs).1.Good := by
  obtain ⟨conf, state, first, lenLeft, packetLeft, frameLeft⟩ := a
  unfold Annexb.body Annexb.Good
  simp only
  by_cases hs : state = .copy <;> by_cases h : packetLeft - min packetLeft bs.length = 0
  · rw [if_pos hs]; simp [h]
  · rw [if_pos hs]; simp only [if_neg h]; omega
  · rw [if_neg hs]; simp [h]
  · rw [if_neg hs]; simp only [if_neg h]; omega

theorem body_writes (a : Annexb) (bs : List UInt8) (h : 0 < a.packetLeft) (hb : bs ≠ []) : Writes (a.body bs).2.1 := by
  have := List.length_pos_iff.mpr hb
  unfold Annexb.body
  simp only
  split
  · exact Writes.one (List.ne_nil_of_length_pos (by rw [List.length_take]; omega))
  · exact Writes.nil

theorem body_conf (a : Annexb) (bs : List UInt8) : (a.body bs).1.conf = a.conf := by
  unfold Annexb.body
  simp only
  split <;> split <;> rfl

/-- The body is read byte by byte. -/
theorem body_steps (a : Annexb) (bs : List UInt8) (hs : a.state ≠ .size) (h : 0 < a.packetLeft) (hb : bs ≠ []) :
    a.steps (bs.take a.packetLeft) = .ok ((a.body bs).1, bytesOf (a.body bs).2.1) ∧ (a.body bs).2.2 = bs.drop a.packetLeft := by
  refine ⟨?_, ?_⟩
  · induction bs generalizing a with
    | nil => exact absurd rfl hb
    | cons b bs ih =>
      obtain ⟨k, hk⟩ : ∃ k, a.packetLeft = k + 1 := ⟨a.packetLeft - 1, by omega⟩
      rw [hk, List.take_succ_cons, Annexb.steps]
      have hstep : a.step b = .ok ((a.body [b]).1, bytesOf (a.body [b]).2.1) := by
        unfold Annexb.step
        split
        · rename_i h1; exact absurd h1 hs
        · rfl
      rw [hstep]
      simp only
      obtain ⟨conf, state, first, lenLeft, packetLeft, frameLeft⟩ := a
      simp only at hk hs
      subst hk
      by_cases hk0 : k = 0
      · subst hk0
        simp only [List.take_zero, Annexb.steps]
        cases state with
        | size => exact absurd rfl hs
        | copy => simp [Annexb.body, bytesOf, Res.map, show min 1 (bs.length + 1) = 1 by omega]
        | skip => simp [Annexb.body, bytesOf, Res.map, show min 1 (bs.length + 1) = 1 by omega]
      · by_cases hbs : bs = []
        · subst hbs
          simp only [List.take_nil, Annexb.steps, Res.map, List.append_nil]
        · have hlen := List.length_pos_iff.mpr hbs
          have hmin : min (k + 1) (bs.length + 1) = min k bs.length + 1 := by omega
          cases state with
          | size => exact absurd rfl hs
          | copy =>
            have h1 : (Annexb.body ⟨conf, .copy, first, lenLeft, k + 1, frameLeft⟩ [b]).1 = ⟨conf, .copy, first, lenLeft, k, frameLeft - 1⟩ := by
              simp [Annexb.body, hk0, show min (k + 1) 1 = 1 by omega]
            have h2 := ih ⟨conf, .copy, first, lenLeft, k, frameLeft - 1⟩ (by simp) (by simpa using Nat.pos_of_ne_zero hk0) hbs
            rw [h1]
            simp only at h2
            rw [h2]
            simp only [Res.map]
            simp [Annexb.body, bytesOf, hmin, show min (k + 1) 1 = 1 by omega]
            rw [show frameLeft - 1 - ((min k bs.length : Nat) : Int) = frameLeft - (((min k bs.length : Nat) : Int) + 1) by omega]
          | skip =>
            have h1 : (Annexb.body ⟨conf, .skip, first, lenLeft, k + 1, frameLeft⟩ [b]).1 = ⟨conf, .skip, first, lenLeft, k, frameLeft⟩ := by
              simp [Annexb.body, hk0, show min (k + 1) 1 = 1 by omega]
            have h2 := ih ⟨conf, .skip, first, lenLeft, k, frameLeft⟩ (by simp) (by simpa using Nat.pos_of_ne_zero hk0) hbs
            rw [h1]
            simp only at h2
            rw [h2]
            simp [Annexb.body, bytesOf, hmin, Res.map, show min (k + 1) 1 = 1 by omega]
  · unfold Annexb.body
    simp only
    rcases Nat.le_total a.packetLeft bs.length with h1 | h1
    · rw [Nat.min_eq_left h1]
    · rw [Nat.min_eq_right h1, List.drop_of_length_le (Nat.le_refl _), List.drop_of_length_le h1]

theorem readLen_steps (a : Annexb) (bs : List UInt8) (h : a.state = .size) :
    a.steps bs = (a.readLen bs).1.steps (a.readLen bs).2 ∧ (a.readLen bs).1.state = .size ∧ ((a.readLen bs).2 ≠ [] → (a.readLen bs).1.lenLeft = 0) ∧
      (a.readLen bs).2.length ≤ bs.length ∧ (a.readLen bs).1.conf = a.conf := by
  induction bs generalizing a with
  | nil => exact ⟨rfl, h, fun h => absurd rfl h, Nat.le_refl _, rfl⟩
  | cons b bs ih =>
    rw [Annexb.readLen]
    by_cases hl : a.lenLeft = 0
    · rw [if_pos hl]; exact ⟨rfl, h, fun _ => hl, Nat.le_refl _, rfl⟩
    · rw [if_neg hl]
      obtain ⟨h1, h2, h3, h4, h5⟩ := ih { a with packetLeft := a.packetLeft * 256 + b.toNat, lenLeft := a.lenLeft - 1 } h
      refine ⟨?_, h2, h3, by simp only [List.length_cons]; omega, h5⟩
      rw [Annexb.steps]
      have hstep : a.step b = .ok ({ a with packetLeft := a.packetLeft * 256 + b.toNat, lenLeft := a.lenLeft - 1 }, []) := by
        unfold Annexb.step; rw [h]; simp only; rw [if_pos hl]
      rw [hstep]
      simp only
      rw [h1]
      simp only [List.nil_append]
      cases Annexb.steps _ _ <;> rfl

theorem nalType_state (a : Annexb) (b : UInt8) : (a.nalType b).1.state ≠ .size ∧ (a.nalType b).1.packetLeft = a.packetLeft ∧ Writes (a.nalType b).2 ∧
    ((a.nalType b).1.state = .skip → (a.nalType b).2 = []) ∧ (a.nalType b).1.conf = a.conf := by
  unfold Annexb.nalType
  split
  · exact ⟨by simp, rfl, Writes.nil, fun _ => rfl, rfl⟩
  · split
    · exact ⟨by simp, rfl, Writes.one (by simp), by simp, rfl⟩
    · exact ⟨by simp, rfl, Writes.one (by simp), by simp, rfl⟩

theorem step_body (a : Annexb) (b : UInt8) (h : a.state ≠ .size) : a.step b = .ok ((a.body [b]).1, bytesOf (a.body [b]).2.1) := by
  unfold Annexb.step
  split
  · rename_i h1; exact absurd h1 h
  · rfl

/-- What a round does, and what is left to do. -/
theorem round_steps (a : Annexb) (bs : List UInt8) (hg : a.Good) (hb : bs ≠ []) :
    (a.round bs = .err ∧ a.steps bs = .err) ∨
    ∃ a' out rest, a.round bs = .ok (a', out, rest) ∧ a.steps bs = (a'.steps rest).map (fun r => (r.1, bytesOf out ++ r.2)) ∧ a'.Good ∧ Writes out ∧
      a'.conf = a.conf ∧ rest.length ≤ bs.length ∧ (rest.length = bs.length → a.state = .size ∧ a'.state = .skip) := by
  have hlen := List.length_pos_iff.mpr hb
  have hbody : ∀ (a : Annexb) (bs : List UInt8), a.Good → a.state ≠ .size → bs ≠ [] →
      a.steps bs = ((a.body bs).1.steps (a.body bs).2.2).map (fun r => (r.1, bytesOf (a.body bs).2.1 ++ r.2)) ∧
      (a.body bs).2.2.length < bs.length := by
    intro a bs hg hs hb
    have hp := hg hs
    have hl := List.length_pos_iff.mpr hb
    obtain ⟨h1, h2⟩ := body_steps a bs hs hp hb
    refine ⟨?_, by rw [h2, List.length_drop]; omega⟩
    conv => lhs; rw [← List.take_append_drop a.packetLeft bs]
    rw [steps_append, h1, h2]
  by_cases hs : a.state = .size
  · obtain ⟨h1, h2, h3, h4, h5⟩ := readLen_steps a bs hs
    unfold Annexb.round
    rw [hs]
    simp only
    rw [h1]
    generalize a.readLen bs = r at *
    obtain ⟨a1, r1⟩ := r
    simp only at h1 h2 h3 h4 h5
    cases r1 with
    | nil =>
      right
      refine ⟨a1, [], [], rfl, by simp [Annexb.steps, bytesOf, Res.map], fun h => absurd h2 h, Writes.nil, h5, by simp, fun h => ?_⟩
      simp only [List.length_nil] at h; omega
    | cons b r =>
      have hl0 := h3 (by simp)
      simp only
      by_cases hp : a1.packetLeft = 0
      · left
        rw [if_pos hp]
        refine ⟨rfl, ?_⟩
        rw [Annexb.steps]
        have : a1.step b = .err := by
          unfold Annexb.step; rw [h2]; simp only; rw [if_neg (by simp [hl0]), if_pos hp]
        rw [this]
      · right
        rw [if_neg hp]
        obtain ⟨n1, n2, n3, n4, n5⟩ := nalType_state a1 b
        have hgood : (a1.nalType b).1.Good := fun _ => by rw [n2]; omega
        have hstep : a1.steps (b :: r) = ((a1.nalType b).1.steps (b :: r)).map (fun x => (x.1, bytesOf (a1.nalType b).2 ++ x.2)) := by
          rw [Annexb.steps, Annexb.steps, step_body _ _ n1]
          have : a1.step b = .ok (((a1.nalType b).1.body [b]).1, bytesOf (a1.nalType b).2 ++ bytesOf ((a1.nalType b).1.body [b]).2.1) := by
            unfold Annexb.step; rw [h2]; simp only; rw [if_neg (by simp [hl0]), if_neg hp]
          rw [this]
          simp only
          cases Annexb.steps _ r <;> simp [Res.map]
        by_cases hk : (a1.nalType b).1.state = .skip
        · rw [if_pos hk]
          exact ⟨_, _, _, rfl, hstep, hgood, n3, n5.trans h5, h4, fun _ => ⟨trivial, hk⟩⟩
        · rw [if_neg hk]
          obtain ⟨k1, k2⟩ := hbody _ (b :: r) hgood n1 (by simp)
          refine ⟨_, _, _, rfl, ?_, body_good _ _, n3.append (body_writes _ _ (hgood n1) (by simp)), (body_conf _ _).trans (n5.trans h5), Nat.le_trans (Nat.le_of_lt k2) h4, fun h => ?_⟩
          · rw [hstep, k1, bytesOf_append]
            cases Annexb.steps _ _ <;> simp [Res.map]
          · exact absurd h (Nat.ne_of_lt (Nat.lt_of_lt_of_le k2 h4))
  · right
    obtain ⟨k1, k2⟩ := hbody a bs hg hs hb
    have hr : a.round bs = .ok (a.body bs) := by
      unfold Annexb.round
      split
      · rename_i h; exact absurd h hs
      · rfl
    exact ⟨_, _, _, hr, k1, body_good _ _, body_writes _ _ (hg hs) hb, body_conf _ _, Nat.le_of_lt k2, fun h => absurd h (Nat.ne_of_lt k2)⟩

theorem loop_steps (fuel : Nat) (a : Annexb) (bs : List UInt8) (hg : a.Good) (hf : 2 * bs.length ≤ fuel + (if a.state = .size then 0 else 1)) :
    (a.loop fuel bs = .err ∧ a.steps bs = .err) ∨
    ∃ a' cs, a.loop fuel bs = .ok (a', cs) ∧ a.steps bs = .ok (a', bytesOf cs) ∧ a'.Good ∧ Writes cs ∧ a'.conf = a.conf := by
  induction fuel generalizing a bs with
  | zero =>
    cases bs with
    | nil => right; exact ⟨a, [], rfl, rfl, hg, Writes.nil, rfl⟩
    | cons b bs => simp only [List.length_cons] at hf; split at hf <;> omega
  | succ n ih =>
    cases bs with
    | nil => right; exact ⟨a, [], rfl, rfl, hg, Writes.nil, rfl⟩
    | cons b bs =>
      rcases round_steps a (b :: bs) hg (by simp) with ⟨h1, h2⟩ | ⟨a1, out, rest, h1, h2, h3, h4, h5, h6, h7⟩
      · left
        refine ⟨?_, h2⟩
        rw [Annexb.loop, h1]; simp
      · have hf' : 2 * rest.length ≤ n + (if a1.state = .size then 0 else 1) := by
          by_cases he : rest.length = (b :: bs).length
          · obtain ⟨e1, e2⟩ := h7 he
            rw [e1, if_pos rfl] at hf
            rw [e2, if_neg (by simp), he]
            omega
          · have : rest.length < (b :: bs).length := by omega
            split at hf <;> split <;> omega
        rcases ih a1 rest h3 hf' with ⟨g1, g2⟩ | ⟨a2, cs, g1, g2, g3, g4, g5⟩
        · left
          refine ⟨?_, by rw [h2, g2]; rfl⟩
          rw [Annexb.loop, h1]
          · simp only; rw [g1]; rfl
          · simp
        · right
          refine ⟨a2, out ++ cs, ?_, by rw [h2, g2, bytesOf_append]; rfl, g3, h4.append g4, g5.trans h5⟩
          rw [Annexb.loop, h1]
          · simp only; rw [g1]; rfl
          · simp

/-- A write reads the bytes, and never runs out of fuel. -/
theorem write_steps (a : Annexb) (bs : List UInt8) (hg : a.Good) :
    (a.write bs = .err ∧ a.steps bs = .err) ∨
    ∃ a' cs, a.write bs = .ok (a', cs) ∧ a.steps bs = .ok (a', bytesOf cs) ∧ a'.Good ∧ Writes cs ∧ a'.conf = a.conf :=
  loop_steps _ a bs hg (by omega)

theorem Annexb.write_ne_ub (a : Annexb) (bs : List UInt8) (hg : a.Good) : a.write bs ≠ .ub := by
  rcases write_steps a bs hg with ⟨h, _⟩ | ⟨_, _, h, _⟩ <;> rw [h] <;> simp

/-! ## A frame -/

theorem body_left (a : Annexb) (b : UInt8) (h : 0 < a.packetLeft) : (a.body [b]).1.frameLeft = a.frameLeft - (bytesOf (a.body [b]).2.1).length := by
  obtain ⟨conf, state, first, lenLeft, packetLeft, frameLeft⟩ := a
  simp only at h
  have hm : min packetLeft 1 = 1 := by omega
  unfold Annexb.body
  simp only [List.length_singleton, hm]
  by_cases hs : state = .copy
  · simp only [if_pos hs]; split <;> simp [bytesOf]
  · simp only [if_neg hs]; split <;> simp [bytesOf]

theorem step_left (a a' : Annexb) (b : UInt8) (out : List UInt8) (hg : a.Good) (h : a.step b = .ok (a', out)) :
    a'.frameLeft = a.frameLeft - out.length ∧ a'.Good := by
  unfold Annexb.step at h
  split at h
  · split at h
    · cases h; exact ⟨by simp, fun h => by rename_i hs _; exact absurd hs h⟩
    · split at h
      · cases h
      · rename_i hp
        cases h
        obtain ⟨n1, n2, _⟩ := nalType_state a b
        refine ⟨?_, body_good _ _⟩
        rw [body_left _ _ (by omega), List.length_append]
        have : (a.nalType b).1.frameLeft = a.frameLeft - (bytesOf (a.nalType b).2).length := by
          unfold Annexb.nalType
          split
          · simp [bytesOf]
          · split <;> simp [bytesOf]
        rw [this]; omega
  · rename_i hs
    cases h
    exact ⟨body_left _ _ (hg hs), body_good _ _⟩

theorem steps_left (bs : List UInt8) (a a' : Annexb) (out : List UInt8) (hg : a.Good) (h : a.steps bs = .ok (a', out)) :
    a'.frameLeft = a.frameLeft - out.length := by
  induction bs generalizing a out with
  | nil => cases h; simp
  | cons b bs ih =>
    rw [Annexb.steps] at h
    cases hs : a.step b with
    | ok r =>
      obtain ⟨a1, o1⟩ := r
      rw [hs] at h
      simp only at h
      obtain ⟨g1, g2⟩ := step_left a a1 b o1 hg hs
      cases hr : a1.steps bs with
      | ok r2 =>
        obtain ⟨a2, o2⟩ := r2
        rw [hr] at h
        simp only [Res.map, Res.ok.injEq, Prod.mk.injEq] at h
        have := ih a1 o2 g2 (by rw [hr, h.1])
        rw [this, g1, ← h.2, List.length_append]; omega
      | err => rw [hr] at h; cases h
      | ub => rw [hr] at h; cases h
    | err => rw [hs] at h; cases h
    | ub => rw [hs] at h; cases h

theorem zeros_writes (fuel n : Nat) (h : n ≤ fuel) :
    ∃ ws : List (List UInt8), zeros fuel n = ws.map .write ∧ (∀ w ∈ ws, w ≠ []) ∧ ws.flatten = List.replicate n 0 := by
  induction fuel generalizing n with
  | zero =>
    obtain rfl : n = 0 := by omega
    exact ⟨[], rfl, by simp, rfl⟩
  | succ fuel ih =>
    cases n with
    | zero => exact ⟨[], rfl, by simp, rfl⟩
    | succ n =>
      obtain ⟨ws, h1, h2, h3⟩ := ih (n + 1 - min (n + 1) 64) (by omega)
      refine ⟨List.replicate (min (n + 1) 64) 0 :: ws, ?_, ?_, ?_⟩
      · rw [zeros]
        · rw [h1]; rfl
        · simp
      · intro w hw
        rw [List.mem_cons] at hw
        rcases hw with rfl | hw
        · exact List.ne_nil_of_length_pos (by rw [List.length_replicate]; omega)
        · exact h2 w hw
      · rw [List.flatten_cons, h3, List.replicate_append_replicate]
        congr 1; omega

theorem calls_append (align : Bool) (b : Filt) (x y : List Call) :
    b.calls align (x ++ y) = match b.calls align x with
      | .ok (b, out) => (Filt.calls align b y).map fun r => (r.1, out ++ r.2)
      | .err => .err
      | .ub => .ub := by
  induction x generalizing b with
  | nil => simp only [List.nil_append, Filt.calls]; cases Filt.calls align b y <;> rfl
  | cons c x ih =>
    rw [List.cons_append, Filt.calls, Filt.calls]
    cases hs : b.call align c with
    | ok r =>
      obtain ⟨b1, o1⟩ := r
      simp only
      rw [ih b1]
      cases Filt.calls align b1 x with
      | ok r2 =>
        obtain ⟨b2, o2⟩ := r2
        simp only [Res.map]
        cases Filt.calls align b2 y <;> simp
      | err => rfl
      | ub => rfl
    | err => rfl
    | ub => rfl

theorem video_writes (align : Bool) (pieces : List (List UInt8)) (a : Annexb) (hg : a.Good) :
    (Filt.calls align (.video a) (pieces.map .write) = .err ∧ a.steps pieces.flatten = .err) ∨
    ∃ a' cs, Filt.calls align (.video a) (pieces.map .write) = .ok (.video a', cs) ∧ a.steps pieces.flatten = .ok (a', bytesOf cs) ∧ a'.Good ∧
      Writes cs ∧ a'.conf = a.conf := by
  induction pieces generalizing a with
  | nil => right; exact ⟨a, [], rfl, rfl, hg, Writes.nil, rfl⟩
  | cons w ws ih =>
    rw [List.map_cons, Filt.calls, List.flatten_cons, steps_append]
    simp only [Filt.call, Annexb.call]
    rcases write_steps a w hg with ⟨h1, h2⟩ | ⟨a1, cs, h1, h2, h3, h4, h5⟩
    · left; rw [h1, h2]; exact ⟨rfl, rfl⟩
    · rw [h1, h2]
      simp only [Res.map]
      rcases ih a1 h3 with ⟨g1, g2⟩ | ⟨a2, cs2, g1, g2, g3, g4, g5⟩
      · left; rw [g1, g2]; exact ⟨rfl, rfl⟩
      · right; rw [g1, g2]
        exact ⟨a2, cs ++ cs2, rfl, by rw [bytesOf_append], g3, h4.append g4, g5.trans h5⟩

/-- The state after `start`. -/
def Annexb.begun (c : VideoConf) (size : Nat) : Annexb := { conf := c, frameLeft := size, first := true, state := .size, lenLeft := c.lenSize, packetLeft := 0 }

theorem begun_good (c : VideoConf) (n : Nat) : (Annexb.begun c n).Good := fun h => absurd rfl h

/-- The delimiter has bytes, and not many. -/
structure VideoConf.Ok (c : VideoConf) : Prop where
  aud : c.aud ≠ []
  len : c.aud.length ≤ 7

/-- What a frame of video becomes. -/
structure VideoAtom (c : VideoConf) (o : OFrame) (data : List UInt8) (x : Atom) (l : Bool) (conv : List UInt8) (k : Nat) : Prop where
  pts : x.f.pts = o.pts
  dts : x.f.dts = o.dts
  last : x.last = l
  flat : x.ws.flatten = c.aud ++ (if o.key then c.extra else []) ++ conv ++ List.replicate k 0
  fine : c.Ok → ∀ n, n ≤ 31 → Fine n x.ws
  size : c.lenSize = 4 → conv.length + k = o.size
  none : c.lenSize ≠ 4 → k = 0
  conv : ∃ a', (Annexb.begun c o.size).steps data = .ok (a', conv)

theorem video_frame (align : Bool) (a : Annexb) (o : OFrame) (pieces : List (List UInt8)) (l : Bool) :
    (Filt.calls align (.video a) ([.start o] ++ pieces.map .write ++ [.flush l]) = .err ∧
      ((0 < o.size ∧ o.size ≤ a.conf.lenSize) ∨ (Annexb.begun a.conf o.size).steps pieces.flatten = .err ∨
        ∃ a' conv, (Annexb.begun a.conf o.size).steps pieces.flatten = .ok (a', conv) ∧ a.conf.lenSize = 4 ∧ o.size < conv.length)) ∨
    ∃ a' x conv k, Filt.calls align (.video a) ([.start o] ++ pieces.map .write ++ [.flush l]) = .ok (.video a', x.calls) ∧ a'.conf = a.conf ∧
      VideoAtom a.conf o pieces.flatten x l conv k := by
  rw [calls_append, calls_append]
  have hstart : Filt.calls align (.video a) [.start o] = (a.start o).map fun r => (.video r.1, r.2) := by
    rw [Filt.calls]
    simp only [Filt.call, Annexb.call]
    cases a.start o <;> simp [Res.map, Filt.calls]
  rw [hstart]
  by_cases hsz : 0 < o.size ∧ o.size ≤ a.conf.lenSize
  · left
    refine ⟨?_, Or.inl hsz⟩
    rw [Annexb.start, if_pos hsz]; rfl
  · rw [Annexb.start, if_neg hsz]
    simp only [Res.map]
    have hb : ({ a with frameLeft := (o.size : Int), first := true, state := .size, lenLeft := a.conf.lenSize, packetLeft := 0 } : Annexb) =
        Annexb.begun a.conf o.size := rfl
    rw [hb]
    rcases video_writes align pieces (Annexb.begun a.conf o.size) (begun_good _ _) with ⟨h1, h2⟩ | ⟨a1, cs, h1, h2, h3, h4, h5⟩
    · left
      refine ⟨?_, Or.inr (Or.inl h2)⟩
      rw [h1]
    · have hleft := steps_left _ _ _ _ (begun_good _ _) h2
      have hleft : a1.frameLeft = (o.size : Int) - (bytesOf cs).length := hleft
      rw [h1]
      simp only
      have hfl : Filt.calls align (.video a1) [.flush l] = (a1.flush l).map fun r => (.video r.1, r.2) := by
        rw [Filt.calls]
        simp only [Filt.call, Annexb.call]
        cases a1.flush l <;> simp [Res.map, Filt.calls]
      rw [hfl, Annexb.flush]
      have h5 : a1.conf = a.conf := h5
      rw [h5]
      obtain ⟨ws, w1, w2⟩ := h4
      have hfine : ∀ (ws : List (List UInt8)), (∀ w ∈ ws, w ≠ []) → a.conf.Ok → ∀ n, n ≤ 31 →
          Fine n (a.conf.aud :: ((if o.key then [a.conf.extra] else []) ++ ws)) := by
        intro ws hw hok n hn
        refine ⟨Or.inl hok.aud, ?_⟩
        have := hok.len
        split
        · exact ⟨Or.inr (by omega), Fine.of_ne _ _ hw⟩
        · exact Fine.of_ne _ _ hw
      by_cases h4 : a.conf.lenSize = 4
      · rw [if_pos h4]
        by_cases hneg : a1.frameLeft < 0
        · left
          rw [if_pos hneg]
          exact ⟨rfl, Or.inr (Or.inr ⟨a1, _, h2, h4, by omega⟩)⟩
        · right
          rw [if_neg hneg]
          obtain ⟨zs, z1, z2, z3⟩ := zeros_writes a1.frameLeft.toNat a1.frameLeft.toNat (Nat.le_refl _)
          refine ⟨{ a1 with frameLeft := 0 },
            ⟨{ o with size := o.size + a.conf.aud.length + (if o.key then a.conf.extra.length else 0), header := o.header + a.conf.aud.length },
              a.conf.aud :: ((if o.key then [a.conf.extra] else []) ++ (ws ++ zs)), l⟩, bytesOf cs, a1.frameLeft.toNat, ?_, h5, ?_⟩
          · simp only [Res.map, Atom.calls, z1, w1]
            split <;> simp [h5]
          · refine ⟨rfl, rfl, rfl, ?_, ?_, ?_, fun h => absurd h4 h, a1, h2⟩
            · rw [w1, bytesOf_writes]
              split <;> simp [z3]
            · exact hfine _ (fun w hw => by rcases List.mem_append.mp hw with h | h; exact w2 w h; exact z2 w h)
            · intro _; omega
      · rw [if_neg h4]
        right
        refine ⟨a1,
          ⟨{ o with size := o.size + a.conf.aud.length + (if o.key then a.conf.extra.length else 0), header := o.header + a.conf.aud.length },
            a.conf.aud :: ((if o.key then [a.conf.extra] else []) ++ ws), l⟩, bytesOf cs, 0, ?_, h5, ?_⟩
        · simp only [Res.map, Atom.calls, w1]
          split <;> simp
        · refine ⟨rfl, rfl, rfl, ?_, hfine ws w2, fun h => absurd h h4, fun _ => rfl, a1, h2⟩
          rw [w1, bytesOf_writes]
          split <;> simp

end Verif.Mts
