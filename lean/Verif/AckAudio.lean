import Verif.AckHist

/-!
# Acks of audio

The invariant of the audio map, and the theorems about it.
-/

namespace Verif.Ack

open Spec

/-- The history of the input stands for the input from frame `b` on. -/
structure InvIn (i0 : Nat) (L : Log) (h : Hist) (b : Nat) : Prop where
  ok : ∀ r ∈ h.q, r.Ok
  base : h.base = i0 + b
  le : b ≤ L.ins.length
  exp : expand h.q = L.ins.drop b
  off : h.off = start L.ins b
  last : h.last + 1 = i0 + L.ins.length ∨ (L.ins = [] ∧ h.last = i0)
  mark0 : start L.ins b ≤ L.mark
  mark1 : L.mark < start L.ins b + 2 ^ 30
  empty : h.q = [] → L.ins = []
  front : ∀ r t, h.q = r :: t → 0 < r.val ∨ start L.ins b < L.mark
  small : ∀ x ∈ L.ins, x < 2 ^ 30
  pos : ∀ d x, L.ins = d ++ [x] → 0 < x

/-- The history of the output stands for the output that is not acked. -/
structure InvOut (o0 : Nat) (L : Log) (h : Hist) : Prop where
  ok : ∀ r ∈ h.q, r.Ok
  base : h.base = o0 + L.acked
  le : L.acked ≤ L.outs.length
  exp : expand h.q = L.outs.drop L.acked
  off : h.off = start L.outs L.acked
  last : h.last = o0 + L.outs.length
  mark : L.mark ≤ start L.outs L.acked

theorem InvIn.init (i0 : Nat) : InvIn i0 .empty (.init i0) 0 where
  ok := by simp [Hist.init]
  base := by simp [Hist.init]
  le := by simp
  exp := by simp [Hist.init, Log.empty]
  off := by simp [Hist.init, Log.empty, start]
  last := .inr ⟨rfl, rfl⟩
  mark0 := by simp [Log.empty, start]
  mark1 := by simp [Log.empty]
  empty := fun _ => rfl
  front := by simp [Hist.init]
  small := by simp [Log.empty]
  pos := by simp [Log.empty]

theorem InvOut.init (o0 : Nat) : InvOut o0 .empty (.init o0) where
  ok := by simp [Hist.init]
  base := by simp [Hist.init, Log.empty]
  le := by simp [Log.empty]
  exp := by simp [Hist.init, Log.empty]
  off := by simp [Hist.init, Log.empty, start]
  last := by simp [Hist.init, Log.empty]
  mark := by simp [Log.empty]

theorem InvIn.add {i0 o0 b id n : Nat} {L : Log} {h : Hist} (I : InvIn i0 L h b)
    (hd : Direct i0 o0 L (.inp id n)) (hf : (L.after i0 o0 (.inp id n)).Fits i0 o0) :
    ∃ h', h.addFrame id (i32 n) = .ok h' ∧ InvIn i0 (L.after i0 o0 (.inp id n)) h' b ∧
      (id = i0 + L.ins.length → (∀ r ∈ h.q, r.val = (n : Int)) → ∀ r ∈ h'.q, r.val = (n : Int)) := by
  obtain ⟨d1, d2, d3, d4, d5⟩ := hd
  obtain ⟨f1, -, f2, -, f3, f4, -, -⟩ := hf
  simp only [Log.after, List.sum_append, List.sum_cons, List.sum_nil, sum_replicate, Nat.mul_zero,
    Nat.zero_add, Nat.add_zero, List.length_append, List.length_replicate, List.length_singleton]
    at f1 f2 f4
  have hi : i32 (n : Int) = n := i32_of (by omega) (by omega)
  have hsd := sum_drop L.ins b
  have m0 := I.mark0
  have m1 := I.mark1
  have hgap : id = h.last + (id - (i0 + L.ins.length)) + 1 ∨
      (id = h.last ∧ id - (i0 + L.ins.length) = 0) := by
    rcases I.last with hl | ⟨h1, h2⟩
    · left; omega
    · right
      have := d3 h1
      omega
  obtain ⟨q', g1, g2, g3, g4, g5⟩ := addFrame_ok (h := h) (fd := id) (dur := n)
    (gap := id - (i0 + L.ins.length)) I.ok d4 (by rw [I.exp]; omega) d2 (by omega) hgap
    (by
      intro hg hq
      have he := I.empty hq
      have := d3 he
      rw [he] at hg
      simp at hg
      omega)
  rw [hi]
  refine ⟨_, g1, ?_, fun h1 h2 => g5 (by omega) n rfl h2⟩
  have hst : start (L.ins ++ (List.replicate (id - (i0 + L.ins.length)) 0 ++ [n])) b = start L.ins b :=
    start_append _ _ I.le
  refine ⟨g2, I.base, ?_, ?_, ?_, ?_, ?_, ?_, ?_, ?_, ?_, ?_⟩
  · have := I.le
    simp only [Log.after, List.length_append]; omega
  · simp only [Log.after]
    rw [g3, I.exp, List.drop_append_of_le_length I.le]
  · simp only [Log.after]
    rw [hst]; exact I.off
  · left
    simp only [Log.after, List.length_append, List.length_replicate, List.length_singleton]
    omega
  · simp only [Log.after]
    rw [hst]; exact m0
  · simp only [Log.after]
    rw [hst]; exact m1
  · intro hq
    simp only at hq
    rw [hq] at g3
    simp at g3
  · intro r t hq
    simp only [Log.after]
    rw [hst]
    simp only at hq
    unfold HeadVal at g4
    cases hh : h.q with
    | nil =>
      rw [hh] at g4
      obtain ⟨r', t', e1, e2⟩ := g4
      rw [e1] at hq
      cases hq
      left; omega
    | cons a q =>
      rw [hh] at g4
      obtain ⟨r', t', e1, e2⟩ := g4
      rw [e1] at hq
      cases hq
      rcases I.front a q hh with hz | hz
      · left; omega
      · exact .inr hz
  · intro x hx
    simp only [Log.after, List.mem_append, List.mem_replicate, List.mem_singleton] at hx
    rcases hx with hx | ⟨-, rfl⟩ | rfl
    · exact I.small x hx
    · omega
    · omega
  · intro d x he
    simp only [Log.after] at he
    rw [← List.append_assoc] at he
    have := (List.append_inj' he rfl).2
    cases this
    exact d4

theorem InvOut.add {i0 o0 n : Nat} {L : Log} {h : Hist} (I : InvOut o0 L h)
    (hd : 0 < n ∧ n < 2 ^ 30) (hf : (L.after i0 o0 (.out n)).Fits i0 o0) :
    ∃ h', h.addFrame (u64 (h.last + 1)) (i32 n) = .ok h' ∧ InvOut o0 (L.after i0 o0 (.out n)) h' := by
  obtain ⟨d1, d2⟩ := hd
  obtain ⟨-, f1, -, f2, -, -, f3, f4⟩ := hf
  have hst : start (L.outs ++ [n]) L.acked = start L.outs L.acked := start_append _ _ I.le
  simp only [Log.after, List.sum_append, List.sum_cons, List.sum_nil, List.length_append,
    List.length_singleton, hst] at f1 f2 f4
  have hi : i32 (n : Int) = n := i32_of (by omega) (by omega)
  have hl := I.last
  have hu : u64 ((h.last : Int) + 1) = h.last + 1 := by unfold u64; omega
  have hsd := sum_drop L.outs L.acked
  obtain ⟨q', g1, g2, g3, -, -⟩ := addFrame_ok (h := h) (fd := h.last + 1) (dur := n)
    (gap := 0) I.ok d1 (by rw [I.exp]; omega) (by omega) (by omega) (.inl (by omega))
    (fun h0 => absurd rfl h0)
  rw [hi, hu]
  refine ⟨_, g1, ?_⟩
  refine ⟨g2, I.base, ?_, ?_, ?_, ?_, ?_⟩
  · have := I.le
    simp only [Log.after, List.length_append]; omega
  · simp only [Log.after]
    rw [g3, I.exp, List.drop_append_of_le_length I.le]; simp
  · simp only [Log.after]
    rw [hst]; exact I.off
  · simp only [Log.after, List.length_append, List.length_singleton]; omega
  · simp only [Log.after]
    rw [hst]; exact I.mark

/-- An offset within frame `k`, kept folded. -/
def Within (ins : List Nat) (k o : Nat) : Prop := o = 0 ∨ ∃ h : k < ins.length, o < ins[k]

/-- The ack of an output frame. -/
theorem ack_ok {i0 o0 b id : Nat} {L : Log} {m : AudioMap} (I : InvIn i0 L m.inp b)
    (O : InvOut o0 L m.out) (hf : L.Fits i0 o0) (hc : L.CanAck o0 id) :
    ∃ inp out p b', m.ack id = .ok (⟨inp, m.filtered, out⟩, p) ∧
      At i0 L.ins p (start L.outs (id - o0)) ∧
      InvIn i0 (L.after i0 o0 (.ack id)) inp b' ∧ InvOut o0 (L.after i0 o0 (.ack id)) out ∧
      (∀ D : Int, (∀ r ∈ m.inp.q, r.val = D) → ∀ r ∈ inp.q, r.val = D) := by
  obtain ⟨f1, f2, f3, f4, f5, f6, f7, f8⟩ := hf
  obtain ⟨c1, c2, c3, c4⟩ := hc
  have hsi := sum_drop L.ins b
  have hso := sum_drop L.outs L.acked
  have m0 := I.mark0
  have m1 := I.mark1
  have mm := O.mark
  have ole := O.le
  have ile := I.le
  have ob := O.base
  have ol := O.last
  have ib := I.base
  have sle := start_le L.outs L.acked
  have sli := start_le L.ins b
  have hlen : 0 < L.ins.length := List.length_pos_iff.mpr c4
  have il : m.inp.last + 1 = i0 + L.ins.length := by
    rcases I.last with h | ⟨h, -⟩
    · exact h
    · exact absurd h c4
  -- the sample at which the acked frame starts
  have hT : start L.outs L.acked + start (L.outs.drop L.acked) (id - o0 - L.acked)
      = start L.outs (id - o0) := by
    rw [← start_add]; congr 1; omega
  have hT2 := start_mono L.outs (j := L.acked) (k := id - o0) (by omega)
  have hT3 := start_le L.outs (id - o0)
  obtain ⟨hi', g1, -⟩ := offsetGo_ok m.out.q (id - m.out.base) m.out.off m.out.off O.ok
    (by rw [O.exp]; omega) (by rw [O.exp, List.length_drop]; omega) (by omega)
    (by rw [O.off]; omega) (by rw [O.off, O.exp]; omega)
  have hoff : m.out.offsetByFrame id = .ok ((start L.outs (id - o0) : Nat), hi') := by
    unfold Hist.offsetByFrame
    rw [if_neg (by omega), g1, O.off, O.exp]
    have : id - m.out.base = id - o0 - L.acked := by omega
    rw [this, ← hT, Int.natCast_add]
  -- the input frame of this sample
  obtain ⟨k, o, e1, e2, e3, e4, e5⟩ := frameGo_ok m.inp.q (start L.outs (id - o0) - start L.ins b)
    m.inp.base I.ok (by rw [I.exp]; omega) (by rw [I.exp]; omega)
    (by rw [I.exp, List.length_drop]; omega)
    (by
      cases hq : m.inp.q with
      | nil => exact absurd (I.empty hq) c4
      | cons r t =>
        rcases I.front r t hq with hz | hz
        · exact .inr ⟨r, t, rfl, hz⟩
        · left; omega)
  rw [I.exp, List.length_drop] at e2
  rw [I.exp] at e3
  have hfr : m.inp.frameByOffset ((start L.outs (id - o0) : Nat) : Int) = .ok (i0 + b + k, o) := by
    unfold Hist.frameByOffset
    have : i64 (((start L.outs (id - o0) : Nat) : Int) - m.inp.off)
        = ((start L.outs (id - o0) - start L.ins b : Nat) : Int) := by
      clear e1 e4 e5
      rw [I.off, i64_of (by omega) (by omega), Int.ofNat_sub (by omega)]
    rw [this, e1, I.base]
  have hk : start L.ins (b + k) + o = start L.outs (id - o0) := by
    clear e1 e4 e5
    rw [start_add]; omega
  have ho : Within L.ins (b + k) o := by
    clear e1 e5
    rcases e4 with e4 | ⟨e4, e4'⟩
    · exact .inl e4
    · right
      have hh : b + k < L.ins.length := by
        rw [I.exp, List.length_drop] at e4; omega
      refine ⟨hh, ?_⟩
      have : (expand m.inp.q)[k] = L.ins[b + k] := by
        simp only [I.exp]
        rw [List.getElem_drop]
      rw [← this]; exact e4'
  have e5' : ∀ j, k = j + 1 → 0 < o ∨ ∀ h : j < (expand m.inp.q).length, 0 < (expand m.inp.q)[j] := e5
  clear e4 e1 e5
  have ho' : o < 2 ^ 30 := by
    rcases ho with ho | ⟨h1, h2⟩
    · omega
    · have := I.small _ (List.getElem_mem h1)
      omega
  -- the output frames before are removed
  have hout : ∃ out, m.out.removeFrames (u64 ((id : Int) - 1)) = .ok out ∧
      InvOut o0 (L.after i0 o0 (.ack id)) out := by
    have hu : u64 ((id : Int) - 1) = id - 1 := by unfold u64; omega
    have hmark : (L.after i0 o0 (.ack id)).mark ≤ start L.outs (id - o0) := by
      simp only [Log.after]
      split <;> omega
    rw [hu]
    unfold Hist.removeFrames
    by_cases hz : id = o0 + L.acked
    · rw [if_pos (by omega)]
      refine ⟨_, rfl, O.ok, ?_, ?_, ?_, ?_, O.last, hmark⟩
      · simp only [Log.after]; omega
      · simp only [Log.after]; omega
      · have : id - o0 = L.acked := by omega
        simp only [Log.after, this]; exact O.exp
      · have : id - o0 = L.acked := by omega
        simp only [Log.after, this]; exact O.off
    · rw [if_neg (by omega)]
      obtain ⟨r, t, r1, r2, r3, -, -⟩ := removeGo_ok m.out.q m.out.base (id - o0 - L.acked - 1) m.out.off
        O.ok (by rw [O.exp]; omega) (by rw [O.exp, List.length_drop]; omega)
        (by rw [O.exp, List.length_drop]; omega) (by rw [O.off]; omega)
        (by rw [O.off, O.exp]; omega) (by omega)
      have x1 : m.out.base + (id - o0 - L.acked - 1) = id - 1 := by omega
      rw [x1] at r1
      rw [r1]
      simp only [Res.bind_ok]
      rw [if_pos (by omega)]
      refine ⟨_, rfl, r2, ?_, ?_, ?_, ?_, O.last, hmark⟩
      · simp only [Log.after]; omega
      · simp only [Log.after]; omega
      · simp only [Log.after]
        rw [r3, O.exp, List.drop_drop]
        congr 1; omega
      · simp only [Log.after]
        rw [O.off, O.exp]
        have x2 : id - o0 - L.acked - 1 + 1 = id - o0 - L.acked := by omega
        rw [x2, ← hT, Int.natCast_add]
  -- the input frames before are removed
  have hin : ∃ inp b', m.inp.removeFrames (u64 (((i0 + b + k : Nat) : Int) - 1)) = .ok inp ∧
      InvIn i0 (L.after i0 o0 (.ack id)) inp b' ∧
      (∀ D : Int, (∀ r ∈ m.inp.q, r.val = D) → ∀ r ∈ inp.q, r.val = D) := by
    have hu : u64 (((i0 + b + k : Nat) : Int) - 1) = i0 + b + k - 1 := by unfold u64; omega
    rw [hu]
    unfold Hist.removeFrames
    by_cases hend : b + k = L.ins.length
    · -- all input is acked: nothing is removed
      rw [if_pos (by omega)]
      have hs0 : start L.ins (b + k) = L.ins.sum := by rw [hend, start_length]
      have hmk : (L.after i0 o0 (.ack id)).mark = L.mark := by
        simp only [Log.after]
        rw [if_neg (by omega)]
      refine ⟨_, b, rfl, ?_, fun D hD => hD⟩
      refine ⟨I.ok, I.base, I.le, I.exp, I.off, I.last, ?_, ?_, I.empty, ?_, I.small, I.pos⟩
      · rw [hmk]; exact m0
      · rw [hmk]; exact m1
      · rw [hmk]; exact I.front
    · have hlt : b + k < L.ins.length := by omega
      by_cases hall : start L.outs (id - o0) < L.ins.sum
      case neg =>
        -- only frames that never came are left
        exfalso
        have hs1 := start_succ L.ins hlt
        have hs2 := start_le L.ins (b + k + 1)
        rcases ho with ho | ⟨h1, h2⟩
        · have hl : L.ins = L.ins.dropLast ++ [L.ins.getLast c4] := (List.dropLast_concat_getLast c4).symm
          have hp := I.pos _ _ hl
          have hle := start_mono L.ins (j := b + k) (k := L.ins.length - 1) (by omega)
          have hs3 : start L.ins (L.ins.length - 1) + L.ins.getLast c4 = L.ins.sum := by
            have : start L.ins (L.ins.length - 1) = L.ins.dropLast.sum := by
              unfold start; rw [List.dropLast_eq_take]
            rw [this]
            conv => rhs; rw [hl]
            simp
          omega
        · omega
      case pos =>
      have hmk : (L.after i0 o0 (.ack id)).mark = start L.outs (id - o0) := by
        simp only [Log.after]
        rw [if_pos hall]
      by_cases hk0 : k = 0
      · rw [if_pos (by omega)]
        refine ⟨_, b, rfl, ?_, fun D hD => hD⟩
        rw [hk0] at hk
        simp only [Nat.add_zero] at hk
        refine ⟨I.ok, I.base, I.le, I.exp, I.off, I.last, ?_, ?_, I.empty, ?_, I.small, I.pos⟩
        · rw [hmk]; show start L.ins b ≤ _; omega
        · rw [hmk]; show _ < start L.ins b + _; omega
        · intro r t hq
          rw [hmk]
          show _ ∨ start L.ins b < _
          rcases I.front r t hq with hz | hz
          · exact .inl hz
          · right; omega
      · rw [if_neg (by omega)]
        obtain ⟨r, t, r1, r2, r3, r4, r5⟩ := removeGo_ok m.inp.q m.inp.base (k - 1) m.inp.off
          I.ok (by rw [I.exp]; omega) (by rw [I.exp, List.length_drop]; omega)
          (by rw [I.exp, List.length_drop]; omega) (by rw [I.off]; omega)
          (by rw [I.off, I.exp]; omega) (by omega)
        have x1 : m.inp.base + (k - 1) = i0 + b + k - 1 := by omega
        have x2 : k - 1 + 1 = k := by omega
        rw [x1] at r1
        rw [x2] at r3 r1
        rw [r1]
        simp only [Res.bind_ok]
        rw [if_pos (by omega)]
        refine ⟨_, b + k, rfl, ?_, r5⟩
        refine ⟨r2, ?_, ?_, ?_, ?_, I.last, ?_, ?_, ?_, ?_, I.small, I.pos⟩
        · simp only; omega
        · show b + k ≤ L.ins.length; omega
        · show _ = L.ins.drop (b + k)
          rw [r3, I.exp, List.drop_drop]
        · show _ = ((start L.ins (b + k) : Nat) : Int)
          simp only
          rw [I.off, I.exp, start_add, Int.natCast_add]
        · rw [hmk]; show start L.ins (b + k) ≤ _; omega
        · rw [hmk]; show _ < start L.ins (b + k) + _; omega
        · intro h; cases h
        · intro r' t' hq
          rw [hmk]
          show _ ∨ start L.ins (b + k) < _
          cases hq
          have hlt' : k - 1 < (expand m.inp.q).length := by rw [I.exp, List.length_drop]; omega
          rcases e5' (k - 1) (by omega) with e5 | e5
          · right; omega
          · left
            rw [r4 hlt']
            have := e5 hlt'
            exact_mod_cast this
  obtain ⟨out, o1, o2⟩ := hout
  obtain ⟨inp, b', i1, i2, i3⟩ := hin
  refine ⟨inp, out, ⟨i0 + b + k, o⟩, b', ?_, ⟨b + k, by simp only; omega, by omega, hk, ho⟩, i2, o2, i3⟩
  unfold AudioMap.ack AudioMap.map
  rw [hoff]
  simp only [Res.bind_ok]
  rw [hfr]
  simp only [Res.bind_ok]
  rw [o1, i1]
  have : u32 (o : Int) = o := by unfold u32; omega
  simp only [this]
  rfl

theorem step_inp {m : AudioMap} {id n : Nat} {h : Hist} (h1 : m.inp.addFrame id (i32 n) = .ok h) :
    m.step (.inp id n) = .ok ({ m with inp := h }, []) := by
  have e : m.addIn id n = .ok { m with inp := h } := by
    unfold AudioMap.addIn; rw [h1]; rfl
  unfold AudioMap.step
  dsimp only
  rw [e, Res.map_ok]

theorem step_out {m : AudioMap} {n : Nat} {h : Hist}
    (h1 : m.out.addFrame (u64 (m.out.last + 1)) (i32 n) = .ok h) (h2 : m.filtered = []) :
    m.step (.out n) = .ok ({ m with out := h }, []) := by
  have e : m.addOut n = .ok { m with out := h } := by
    unfold AudioMap.addOut; rw [h1, h2]; rfl
  unfold AudioMap.step
  dsimp only
  rw [e, Res.map_ok]

theorem step_out_filtered {m : AudioMap} {n i : Nat} {fs : List (Nat × Nat)} {h : Hist} (hn : 0 < n)
    (h1 : m.out.addFrame (u64 (m.out.last + 1)) (i32 n) = .ok h) (h2 : m.filtered = (i, n) :: fs)
    (h3 : align m.inp h i = .ok h) :
    m.step (.out n) = .ok (⟨m.inp, fs, h⟩, []) := by
  have e : m.addOut n = .ok ⟨m.inp, fs, h⟩ := by
    unfold AudioMap.addOut
    rw [h1, h2]
    unfold caught
    dsimp only
    rw [if_neg (by omega), h3]
    simp only [Nat.min_self, Nat.sub_self, if_true]
  unfold AudioMap.step
  dsimp only
  rw [e, Res.map_ok]

/-! ## Sessions without a filter -/

/-- The state of a session without a filter. -/
def Inv (i0 o0 : Nat) (L : Log) (m : AudioMap) : Prop :=
  (∃ b, InvIn i0 L m.inp b) ∧ InvOut o0 L m.out ∧ m.filtered = []

theorem Inv.step {i0 o0 : Nat} {L : Log} {m : AudioMap} {e : Ev} (I : Inv i0 o0 L m)
    (hf : L.Fits i0 o0) (hd : Direct i0 o0 L e) (hf' : (L.after i0 o0 e).Fits i0 o0) :
    ∃ m' ps, m.step e = .ok (m', ps) ∧ Inv i0 o0 (L.after i0 o0 e) m' := by
  obtain ⟨⟨b, I⟩, O, F⟩ := I
  cases e with
  | inp id n =>
    obtain ⟨h, h1, h2, -⟩ := I.add hd hf'
    refine ⟨{ m with inp := h }, [], ?_, ⟨b, h2⟩, ?_, F⟩
    · exact step_inp h1
    · exact ⟨O.ok, O.base, O.le, O.exp, O.off, O.last, O.mark⟩
  | filt id n => exact False.elim hd
  | out n =>
    obtain ⟨h, h1, h2⟩ := O.add hd hf'
    refine ⟨{ m with out := h }, [], ?_, ⟨b, ?_⟩, h2, F⟩
    · exact step_out h1 F
    · exact ⟨I.ok, I.base, I.le, I.exp, I.off, I.last, I.mark0, I.mark1, I.empty, I.front, I.small, I.pos⟩
  | ack id =>
    obtain ⟨inp, out, p, b', h1, -, h3, h4, -⟩ := ack_ok I O hf hd
    refine ⟨⟨inp, m.filtered, out⟩, [p], ?_, ⟨b', h3⟩, h4, F⟩
    simp only [AudioMap.step, h1, Res.map_ok]

theorem run_append (m : AudioMap) (es es' : List Ev) :
    m.run (es ++ es') = (do
      let (m, ps) ← m.run es
      let (m, qs) ← m.run es'
      .ok (m, ps ++ qs)) := by
  induction es generalizing m with
  | nil =>
    simp only [List.nil_append, AudioMap.run, Res.bind_ok]
    cases m.run es' <;> rfl
  | cons e es ih =>
    simp only [List.cons_append, AudioMap.run]
    cases m.step e with
    | err => rfl
    | ub => rfl
    | ok x =>
      simp only [Res.bind_ok, ih]
      cases x.1.run es with
      | err => rfl
      | ub => rfl
      | ok y =>
        simp only [Res.bind_ok]
        cases y.1.run es' with
        | err => rfl
        | ub => rfl
        | ok z => simp [List.append_assoc]

theorem Allowed_append {ok : Log → Ev → Prop} {i0 o0 : Nat} : ∀ {L : Log} {es es' : List Ev},
    Allowed ok i0 o0 L (es ++ es') ↔ Allowed ok i0 o0 L es ∧ Allowed ok i0 o0 (L.afters i0 o0 es) es'
  | L, [], es' => by simp [Allowed, Log.afters]
  | L, e :: es, es' => by
    simp only [List.cons_append, Allowed, Log.afters, List.foldl_cons]
    rw [Allowed_append (L := L.after i0 o0 e)]
    simp only [Log.afters, and_assoc]

theorem Inv.run {i0 o0 : Nat} : ∀ {L : Log} {m : AudioMap} {es : List Ev}, Inv i0 o0 L m →
    L.Fits i0 o0 → Allowed (Direct i0 o0) i0 o0 L es →
    ∃ m' ps, m.run es = .ok (m', ps) ∧ Inv i0 o0 (L.afters i0 o0 es) m' ∧ (L.afters i0 o0 es).Fits i0 o0
  | L, m, [], I, hf, _ => ⟨m, [], rfl, I, hf⟩
  | L, m, e :: es, I, hf, ha => by
    obtain ⟨h1, h2, h3⟩ := ha
    obtain ⟨m1, ps, s1, I1⟩ := I.step hf h1 h2
    obtain ⟨m2, qs, s2, I2, f2⟩ := Inv.run I1 h2 h3
    refine ⟨m2, ps ++ qs, ?_, I2, f2⟩
    unfold AudioMap.run
    rw [s1]
    simp only [Res.bind_ok, s2]

theorem empty_fits {i0 o0 : Nat} (hi : 0 < i0) (hi' : i0 < 2 ^ 62) (ho : 0 < o0) (ho' : o0 < 2 ^ 62) :
    Log.empty.Fits i0 o0 := by
  simp only [Log.Fits, Log.empty, List.sum_nil, List.length_nil, start, List.take_nil]
  omega

/-- C89. Without a filter, the ack of an output frame is mapped to the input sample at which that
output frame starts: the position acked to the sender has as many input samples before it as output samples are
before the acked frame, and its offset is within its frame. Ids that the decoder never gave out count as frames
of no samples. -/
theorem audio_ack_exact {i0 o0 id : Nat} {es : List Ev} (hi : 0 < i0) (hi' : i0 < 2 ^ 62) (ho : 0 < o0)
    (ho' : o0 < 2 ^ 62) (ha : Allowed (Direct i0 o0) i0 o0 .empty (es ++ [.ack id])) :
    ∃ m ps p, (AudioMap.init i0 o0).run (es ++ [.ack id]) = .ok (m, ps ++ [p]) ∧
      At i0 (Log.empty.afters i0 o0 es).ins p (start (Log.empty.afters i0 o0 es).outs (id - o0)) := by
  rw [Allowed_append] at ha
  obtain ⟨h1, h2, -⟩ := ha
  have I0 : Inv i0 o0 .empty (.init i0 o0) := ⟨⟨0, .init i0⟩, .init o0, rfl⟩
  obtain ⟨m1, ps, s1, ⟨⟨b, I⟩, O, -⟩, f⟩ := I0.run (empty_fits hi hi' ho ho') h1
  obtain ⟨inp, out, p, b', g1, g2, -⟩ := ack_ok I O f h2
  refine ⟨⟨inp, m1.filtered, out⟩, ps, p, ?_, g2⟩
  rw [run_append, s1]
  simp only [Res.bind_ok, AudioMap.run, AudioMap.step, g1, Res.map_ok, List.append_nil]

/-! ## Sessions with a filter -/

/-- The state of a session with a filter and frames of `D` samples. -/
structure InvF (D i0 o0 : Nat) (L : Log) (m : AudioMap) : Prop where
  inp : ∃ b, InvIn i0 L m.inp b
  out : InvOut o0 L m.out
  val : ∀ r ∈ m.inp.q, r.val = (D : Int)
  ins : L.ins = List.replicate L.ins.length D
  outs : L.outs = List.replicate L.outs.length D
  le : L.outs.length ≤ L.filts
  le' : L.filts ≤ L.ins.length
  filt : m.filtered = (List.range' L.outs.length (L.filts - L.outs.length)).map fun i => (i0 + i, D)

theorem start_replicate {n D k : Nat} (h : k ≤ n) : start (List.replicate n D) k = k * D := by
  unfold start
  rw [List.take_replicate, Nat.min_eq_left h, sum_replicate]

theorem InvF.step {D i0 o0 : Nat} {L : Log} {m : AudioMap} {e : Ev} (hD : 0 < D) (hD' : D < 2 ^ 30)
    (I : InvF D i0 o0 L m) (hf : L.Fits i0 o0) (hd : Filtered D i0 o0 L e)
    (hf' : (L.after i0 o0 e).Fits i0 o0) :
    ∃ m' ps, m.step e = .ok (m', ps) ∧ InvF D i0 o0 (L.after i0 o0 e) m' := by
  obtain ⟨⟨b, II⟩, O, V, Ri, Ro, Le, Le', F⟩ := I
  cases e with
  | inp id n =>
    obtain ⟨rfl, rfl⟩ := hd
    obtain ⟨h, h1, h2, h3⟩ := II.add (o0 := o0) (id := i0 + L.ins.length) (n := n)
      ⟨by omega, by omega, fun h => by simp [h], hD, hD'⟩ hf'
    refine ⟨{ m with inp := h }, [], ?_, ⟨b, h2⟩, ?_, h3 rfl V, ?_, Ro, Le, ?_, F⟩
    · exact step_inp h1
    · exact ⟨O.ok, O.base, O.le, O.exp, O.off, O.last, O.mark⟩
    · simp only [Log.after, Nat.sub_self, List.replicate_zero, List.nil_append, List.length_append,
        List.length_singleton]
      conv => lhs; rw [Ri]
      rw [List.replicate_succ']
    · simp only [Log.after, List.length_append]; omega
  | filt id n =>
    obtain ⟨rfl, h2, rfl⟩ := hd
    obtain ⟨-, -, -, -, -, f4, -, -⟩ := hf'
    simp only [Log.after] at f4
    have hne : i0 + L.filts ≠ invalidId := by unfold invalidId; omega
    have hF : m.addFiltered (i0 + L.filts) n
        = { m with filtered := m.filtered ++ [(i0 + L.filts, n)] } := by
      unfold AudioMap.addFiltered
      rw [if_neg hne]
      simp only
      by_cases hz : L.filts - L.outs.length = 0
      · rw [F, hz]; simp
      · have hl : m.filtered.getLast? = some (i0 + (L.filts - 1), n) := by
          rw [F, List.getLast?_map, List.getLast?_range', if_neg hz]
          simp only [Option.map_some, Option.some.injEq, Prod.mk.injEq, and_true]
          omega
        rw [hl]
        simp only
        rw [if_pos (by omega)]
    refine ⟨{ m with filtered := m.filtered ++ [(i0 + L.filts, n)] }, [], by simp only [AudioMap.step, hF], ⟨b, ?_⟩, ?_, V, Ri, Ro, ?_, ?_, ?_⟩
    · exact ⟨II.ok, II.base, II.le, II.exp, II.off, II.last, II.mark0, II.mark1, II.empty, II.front,
        II.small, II.pos⟩
    · exact ⟨O.ok, O.base, O.le, O.exp, O.off, O.last, O.mark⟩
    · show L.outs.length ≤ L.filts + 1; omega
    · show L.filts + 1 ≤ L.ins.length; omega
    · show m.filtered ++ _ = (List.range' L.outs.length (L.filts + 1 - L.outs.length)).map _
      have : L.filts + 1 - L.outs.length = (L.filts - L.outs.length) + 1 := by omega
      rw [this, List.range'_concat, List.map_append, F]
      simp only [List.map_cons, List.map_nil]
      congr 3
      omega
  | out n =>
    obtain ⟨rfl, hlt⟩ := hd
    obtain ⟨h, h1, h2⟩ := O.add (i0 := i0) ⟨hD, hD'⟩ hf'
    have hfl : m.filtered = (i0 + L.outs.length, n) ::
        (List.range' (L.outs.length + 1) (L.filts - L.outs.length - 1)).map fun i => (i0 + i, n) := by
      rw [F]
      have : L.filts - L.outs.length = (L.filts - L.outs.length - 1) + 1 := by omega
      conv => lhs; rw [this]
      rw [List.range'_succ]; rfl
    have hal : align m.inp h (i0 + L.outs.length) = .ok h := by
      obtain ⟨f1, f2, f3, f4, f5, f6, f7, f8⟩ := hf
      obtain ⟨f1', f2', f3', f4', f5', f6', f7', f8'⟩ := hf'
      have m0 := II.mark0
      have m1 := II.mark1
      have mm := O.mark
      have ile := II.le
      have ole := O.le
      have hsi := sum_drop L.ins b
      have sli := start_le L.ins b
      have sb : start L.ins b = b * n := by rw [Ri]; exact start_replicate ile
      have sa : start L.outs L.acked = L.acked * n := by rw [Ro]; exact start_replicate ole
      have hba : b ≤ L.outs.length := by
        have : b * n ≤ L.acked * n := by omega
        have := Nat.le_of_mul_le_mul_right this hD
        omega
      have hne : m.inp.q ≠ [] := by
        intro hq
        have := II.empty hq
        rw [this] at Le'
        simp at Le'
        omega
      have ib := II.base
      have il : m.inp.last + 1 = i0 + L.ins.length := by
        rcases II.last with h | ⟨h, -⟩
        · exact h
        · rw [h] at Le'; simp at Le'; omega
      obtain ⟨hi, g1, g2⟩ := offsetGo_ok m.inp.q (i0 + L.outs.length - m.inp.base) m.inp.off m.inp.off II.ok
        (by rw [II.exp]; omega) (by rw [II.exp, List.length_drop]; omega) (by omega)
        (by rw [II.off]; omega) (by rw [II.off, II.exp]; omega)
      obtain ⟨r, hr, g3⟩ := g2 hne
      rw [V r hr] at g3
      have hlo : m.inp.off + ((start (expand m.inp.q) (i0 + L.outs.length - m.inp.base) : Nat) : Int)
          = ((L.outs.length * n : Nat) : Int) := by
        rw [II.off, II.exp, ← Int.natCast_add, ← start_add]
        have : b + (i0 + L.outs.length - m.inp.base) = L.outs.length := by omega
        rw [this, Ri, start_replicate (by omega)]
      rw [hlo] at g1 g3
      have hin : m.inp.offsetByFrame (i0 + L.outs.length) = .ok (((L.outs.length * n : Nat) : Int), hi) := by
        unfold Hist.offsetByFrame
        rw [if_neg (by omega), g1]
      have hb := h2.base
      have hl := h2.last
      have ho := h2.off
      have he := h2.exp
      have hsd := sum_drop (L.after i0 o0 (.out n)).outs (L.after i0 o0 (.out n)).acked
      have hll : (L.after i0 o0 (.out n)).outs.length = L.outs.length + 1 := by
        simp [Log.after]
      have hla : (L.after i0 o0 (.out n)).acked = L.acked := rfl
      have hls : (L.after i0 o0 (.out n)).outs.sum = L.outs.length * n + n := by
        simp only [Log.after, List.sum_append, List.sum_cons, List.sum_nil]
        conv => lhs; rw [Ro, sum_replicate]
        omega
      obtain ⟨hi2, g4, -⟩ := offsetGo_ok h.q (h.last - h.base) h.off h.off h2.ok
        (by rw [he]; omega) (by rw [he, List.length_drop]; omega) (by omega)
        (by rw [ho]; omega) (by rw [ho, he]; omega)
      have hto : h.off + ((start (expand h.q) (h.last - h.base) : Nat) : Int)
          = ((L.outs.length * n + n : Nat) : Int) := by
        rw [ho, he, ← Int.natCast_add, ← start_add]
        have : (L.after i0 o0 (.out n)).acked + (h.last - h.base) = (L.after i0 o0 (.out n)).outs.length := by
          omega
        rw [this, start_length, hls]
      rw [hto] at g4
      have hout : h.offsetByFrame h.last = .ok (((L.outs.length * n + n : Nat) : Int), hi2) := by
        unfold Hist.offsetByFrame
        rw [if_neg (by omega), g4]
      unfold align
      rw [hin]
      simp only [Res.bind_ok]
      rw [hout]
      simp only [Res.bind_ok]
      rw [if_neg (by omega), if_neg (by omega)]
    refine ⟨⟨m.inp, (List.range' (L.outs.length + 1) (L.filts - L.outs.length - 1)).map
      fun i => (i0 + i, n), h⟩, [], ?_, ⟨b, ?_⟩, h2, V, Ri, ?_, ?_, Le', ?_⟩
    · exact step_out_filtered hD h1 hfl hal
    · exact ⟨II.ok, II.base, II.le, II.exp, II.off, II.last, II.mark0, II.mark1, II.empty, II.front,
        II.small, II.pos⟩
    · simp only [Log.after, List.length_append, List.length_singleton]
      conv => lhs; rw [Ro]
      rw [List.replicate_succ']
    · simp only [Log.after, List.length_append, List.length_singleton]; omega
    · simp only [Log.after, List.length_append, List.length_singleton]
      congr 2
  | ack id =>
    obtain ⟨inp, out, p, b', h1, -, h3, h4, h5⟩ := ack_ok II O hf hd
    refine ⟨⟨inp, m.filtered, out⟩, [p], ?_, ⟨b', h3⟩, h4, h5 D V, Ri, Ro, Le, Le', F⟩
    simp only [AudioMap.step, h1, Res.map_ok]

theorem InvF.run {D i0 o0 : Nat} (hD : 0 < D) (hD' : D < 2 ^ 30) :
    ∀ {L : Log} {m : AudioMap} {es : List Ev}, InvF D i0 o0 L m →
    L.Fits i0 o0 → Allowed (Filtered D i0 o0) i0 o0 L es →
    ∃ m' ps, m.run es = .ok (m', ps) ∧ InvF D i0 o0 (L.afters i0 o0 es) m' ∧
      (L.afters i0 o0 es).Fits i0 o0
  | L, m, [], I, hf, _ => ⟨m, [], rfl, I, hf⟩
  | L, m, e :: es, I, hf, ha => by
    obtain ⟨h1, h2, h3⟩ := ha
    obtain ⟨m1, ps, s1, I1⟩ := I.step hD hD' hf h1 h2
    obtain ⟨m2, qs, s2, I2, f2⟩ := InvF.run hD hD' I1 h2 h3
    refine ⟨m2, ps ++ qs, ?_, I2, f2⟩
    unfold AudioMap.run
    rw [s1]
    simp only [Res.bind_ok, s2]

/-- C90, the part that holds. With a filter that keeps the samples, and frames of the same number of samples on
both sides, the ack of an output frame is mapped to the input sample at which that frame starts.
Missing: frames of different sizes, see `not_filtered_exact`. -/
theorem filtered_ack_exact_partial {D i0 o0 id : Nat} {es : List Ev} (hD : 0 < D) (hD' : D < 2 ^ 30)
    (hi : 0 < i0) (hi' : i0 < 2 ^ 62) (ho : 0 < o0) (ho' : o0 < 2 ^ 62)
    (ha : Allowed (Filtered D i0 o0) i0 o0 .empty (es ++ [.ack id])) :
    ∃ m ps p, (AudioMap.init i0 o0).run (es ++ [.ack id]) = .ok (m, ps ++ [p]) ∧
      At i0 (Log.empty.afters i0 o0 es).ins p (start (Log.empty.afters i0 o0 es).outs (id - o0)) := by
  rw [Allowed_append] at ha
  obtain ⟨h1, h2, -⟩ := ha
  have I0 : InvF D i0 o0 .empty (.init i0 o0) :=
    ⟨⟨0, .init i0⟩, .init o0, by simp [AudioMap.init, Hist.init], rfl, rfl, Nat.le_refl _, Nat.le_refl _, rfl⟩
  obtain ⟨m1, ps, s1, ⟨⟨b, I⟩, O, -, -, -, -, -, -⟩, f⟩ := I0.run hD hD' (empty_fits hi hi' ho ho') h1
  obtain ⟨inp, out, p, b', g1, g2, -⟩ := ack_ok I O f h2
  refine ⟨⟨inp, m1.filtered, out⟩, ps, p, ?_, g2⟩
  rw [run_append, s1]
  simp only [Res.bind_ok, AudioMap.run, AudioMap.step, g1, Res.map_ok, List.append_nil]

end Verif.Ack
