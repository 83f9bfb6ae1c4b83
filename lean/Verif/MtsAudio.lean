import Verif.MtsVideo

/-! # The buffer of audio, with frames aligned -/

namespace Verif.Mts

/-- A frame with its bytes. -/
abbrev Chunk := OFrame × List UInt8

/-- The bytes of frames. -/
def flat (g : List Chunk) : List UInt8 := (g.map Prod.snd).flatten

@[simp] theorem flat_nil : flat [] = [] := rfl
@[simp] theorem flat_cons (c : Chunk) (g : List Chunk) : flat (c :: g) = c.2 ++ flat g := rfl
@[simp] theorem flat_append (g h : List Chunk) : flat (g ++ h) = flat g ++ flat h := by simp [flat]

/-- The first of the frames that are buffered, or the one that is coming. -/
def firstOf (g : List Chunk) (f : OFrame) : OFrame := match g with | [] => f | c :: _ => c.1

/-- Between frames, with `g` in the buffer. -/
structure Between (b : Buffer) (g : List Chunk) : Prop where
  data : b.data = flat g
  done : b.done = (flat g).length
  ne : ∀ c ∈ g, c.2 ≠ []
  state : b.state = if g = [] then .initial else .flushed
  cur : ∀ c t, g = c :: t → b.cur = c.1
  fits : (flat g).length ≤ b.size

/-- In a frame `f` of which `p` was written, with `g` in the buffer before it. -/
structure Started (b : Buffer) (g : List Chunk) (f : OFrame) (p : List UInt8) : Prop where
  data : b.data = flat g ++ p
  done : b.done = (flat g).length
  ne : ∀ c ∈ g, c.2 ≠ []
  state : b.state = .started
  cur : b.cur = firstOf g f
  last : b.last = f
  fits : b.data.length ≤ b.size

/-- In a frame that is not buffered. -/
structure Direct (b : Buffer) : Prop where
  state : b.state = .direct
  data : b.data = []
  done : b.done = 0

/-- Frames that are written together. -/
structure Atom.Of (a : Atom) (g : List Chunk) : Prop where
  ne : g ≠ []
  first : ∀ c t, g = c :: t → a.f = c.1
  bytes : a.ws.flatten = flat g
  fine : ∀ n, n ≤ 31 → Fine n a.ws

/-- Frames written as atoms: each of some of them that follow each other, or of one if `single`. -/
inductive Groups (single : Bool) : List Atom → List Chunk → Prop where
  | nil : Groups single [] []
  | cons {a : Atom} {g : List Chunk} {as : List Atom} {fs : List Chunk} :
    a.Of g → (single = true → g.length = 1) → Groups single as fs → Groups single (a :: as) (g ++ fs)

theorem Groups.append {s : Bool} {as bs : List Atom} {fs gs : List Chunk} (h1 : Groups s as fs) (h2 : Groups s bs gs) :
    Groups s (as ++ bs) (fs ++ gs) := by
  induction h1 with
  | nil => exact h2
  | cons h h' _ ih => rw [List.cons_append, List.append_assoc]; exact .cons h h' ih

theorem Groups.one {a : Atom} {g : List Chunk} (h : a.Of g) : Groups false [a] g := by
  have := Groups.cons (single := false) h (by simp) .nil
  rwa [List.append_nil] at this

/-- The calls of atoms. -/
def atomCalls (as : List Atom) : List Call := (as.map Atom.calls).flatten

@[simp] theorem atomCalls_nil : atomCalls [] = [] := rfl
@[simp] theorem atomCalls_append (a b : List Atom) : atomCalls (a ++ b) = atomCalls a ++ atomCalls b := by simp [atomCalls]
@[simp] theorem atomCalls_one (a : Atom) : atomCalls [a] = a.calls := by simp [atomCalls]

theorem bcalls_append (align : Bool) (b : Buffer) (x y : List Call) :
    b.calls align (x ++ y) = match b.calls align x with
      | .ok (b, out) => (Buffer.calls align b y).map fun r => (r.1, out ++ r.2)
      | .err => .err
      | .ub => .ub := by
  induction x generalizing b with
  | nil => simp only [List.nil_append, Buffer.calls]; cases Buffer.calls align b y <;> rfl
  | cons c x ih =>
    rw [List.cons_append, Buffer.calls, Buffer.calls]
    cases hs : b.call align c with
    | ok r =>
      obtain ⟨b1, o1⟩ := r
      simp only
      rw [ih b1]
      cases Buffer.calls align b1 x with
      | ok r2 =>
        obtain ⟨b2, o2⟩ := r2
        simp only [Res.map]
        cases Buffer.calls align b2 y <;> simp
      | err => rfl
      | ub => rfl
    | err => rfl
    | ub => rfl

theorem flat_ne (g : List Chunk) (h : ∀ c ∈ g, c.2 ≠ []) : (flat g).length = 0 ↔ g = [] := by
  cases g with
  | nil => simp
  | cons c t =>
    have := List.length_pos_iff.mpr (h c (by simp))
    simp; intro h'; rw [h'] at this; simp at this

/-- What is buffered, as an atom. -/
def groupAtom (g : List Chunk) (f : OFrame) (l : Bool) : Atom := ⟨firstOf g f, [flat g], l⟩

theorem groupAtom_of (g : List Chunk) (f : OFrame) (l : Bool) (hg : g ≠ []) (h : ∀ c ∈ g, c.2 ≠ []) : (groupAtom g f l).Of g := by
  refine ⟨hg, ?_, by simp [groupAtom], fun n _ => Fine.of_ne n _ ?_⟩
  · rintro c t rfl; rfl
  · intro w hw
    simp only [groupAtom, List.mem_singleton] at hw
    subst hw
    intro h0
    exact hg ((flat_ne g h).mp (by rw [h0]; rfl))

/-- What was buffered before is flushed. -/
def preAtoms (g : List Chunk) : List Atom := if g = [] then [] else [groupAtom g ⟨0, 0, false, 0, 0⟩ false]

theorem preAtoms_groups (g : List Chunk) (h : ∀ c ∈ g, c.2 ≠ []) : Groups false (preAtoms g) g := by
  unfold preAtoms
  split
  · rename_i h0; subst h0; exact .nil
  · rename_i h0; exact Groups.one (groupAtom_of g _ _ h0 h)

theorem firstOf_ne (g : List Chunk) (f f' : OFrame) (h : g ≠ []) : firstOf g f = firstOf g f' := by
  cases g with
  | nil => exact absurd rfl h
  | cons c t => rfl

/-- The flush in a frame. -/
theorem flush_started (b : Buffer) (g : List Chunk) (f : OFrame) (p : List UInt8) (h : Started b g f p) :
    ∃ b', b.forceFlush true false = (b', atomCalls (preAtoms g)) ∧ Started b' [] f p ∧ b'.size = b.size := by
  unfold Buffer.forceFlush
  have hz := flat_ne g h.ne
  by_cases hg : g = []
  · subst hg
    rw [if_pos (by rw [h.done]; rfl)]
    exact ⟨b, rfl, h, rfl⟩
  · rw [if_neg (by rw [h.done]; exact fun h0 => hg (hz.mp h0))]
    simp only [if_true]
    refine ⟨_, Prod.ext rfl ?_, ⟨?_, rfl, by simp, ?_, ?_, h.last, ?_⟩, rfl⟩
    · rw [preAtoms, if_neg hg, atomCalls_one]
      simp only [Atom.calls, groupAtom, List.map_cons, List.map_nil, h.cur, firstOf_ne g f ⟨0, 0, false, 0, 0⟩ hg, h.data, h.done]
      rw [List.take_append_of_le_length (Nat.le_refl _), List.take_of_length_le (Nat.le_refl _)]
    · show b.data.drop b.done = _
      rw [h.data, h.done, List.drop_append_of_le_length (Nat.le_refl _), List.drop_of_length_le (Nat.le_refl _)]; rfl
    · show (if b.state = .flushed then _ else b.state) = _
      rw [h.state]; rfl
    · show (if b.state = .started then b.last else b.cur) = _
      rw [h.state, if_pos rfl, h.last]; rfl
    · show (b.data.drop b.done).length ≤ b.size
      have := h.fits
      rw [List.length_drop]; omega

theorem direct_writes (b : Buffer) (h : Direct b) (xs : List (List UInt8)) : b.calls true (xs.map .write) = .ok (b, xs.map .write) := by
  induction xs with
  | nil => rfl
  | cons x xs ih =>
    rw [List.map_cons, Buffer.calls]
    simp only [Buffer.call, Buffer.write, h.state]
    rw [ih]
    rfl

/-- The writes of a frame. -/
theorem writes_started (xs : List (List UInt8)) (b : Buffer) (g : List Chunk) (f : OFrame) (p : List UInt8) (h : Started b g f p)
    (hx : ∀ x ∈ xs, x ≠ []) :
    ∃ b' cs, b.calls true (xs.map .write) = .ok (b', cs) ∧ b'.size = b.size ∧
      (if (flat g).length + (p ++ xs.flatten).length ≤ b.size then cs = [] ∧ Started b' g f (p ++ xs.flatten)
       else if (p ++ xs.flatten).length ≤ b.size then cs = atomCalls (preAtoms g) ∧ Started b' [] f (p ++ xs.flatten)
       else Direct b' ∧ ∃ ws : List (List UInt8), cs = atomCalls (preAtoms g) ++ [.start f] ++ ws.map .write ∧ ws.flatten = p ++ xs.flatten ∧
         ∀ w ∈ ws, w ≠ []) := by
  induction xs generalizing b g p with
  | nil =>
    refine ⟨b, [], rfl, rfl, ?_⟩
    have := h.fits
    rw [h.data, List.length_append] at this
    simp only [List.flatten_nil, List.append_nil]
    rw [if_pos this]
    exact ⟨trivial, h⟩
  | cons x xs ih =>
    have hfit := h.fits
    rw [h.data, List.length_append] at hfit
    rw [List.map_cons, Buffer.calls]
    simp only [Buffer.call, Buffer.write, h.state]
    rw [List.flatten_cons, ← List.append_assoc]
    by_cases h1 : b.size < b.data.length + x.length
    · rw [if_pos h1]
      obtain ⟨b1, f1, f2, f3⟩ := flush_started b g f p h
      have hover : ¬ (flat g).length + (p ++ x ++ xs.flatten).length ≤ b.size := by
        rw [h.data] at h1
        simp only [List.length_append] at h1 ⊢; omega
      rw [f1]
      simp only [if_neg hover]
      by_cases h2 : b1.data.length + x.length ≤ b1.size
      · rw [if_pos h2]
        simp only
        obtain ⟨b2, cs, g1, g2, g3⟩ := ih { b1 with data := b1.data ++ x } [] (p ++ x)
          ⟨by show b1.data ++ x = _; rw [f2.data]; simp, f2.done, by simp, f2.state, f2.cur, f2.last, by show (b1.data ++ x).length ≤ _; simpa using h2⟩
          (fun y hy => hx y (by simp [hy]))
        rw [g1]
        refine ⟨b2, _, rfl, g2.trans f3, ?_⟩
        have hs : ({ b1 with data := b1.data ++ x } : Buffer).size = b.size := f3
        rw [hs] at g3
        simp only [flat_nil, List.length_nil, Nat.zero_add] at g3
        by_cases h3 : (p ++ x ++ xs.flatten).length ≤ b.size
        · rw [if_pos h3] at g3 ⊢
          rw [g3.1, List.append_nil]
          exact ⟨rfl, g3.2⟩
        · rw [if_neg h3, if_neg h3] at g3
          rw [if_neg h3]
          obtain ⟨d, ws, w1, w2, w3⟩ := g3
          refine ⟨d, ws, ?_, w2, w3⟩
          rw [w1]; simp [preAtoms]
      · rw [if_neg h2]
        simp only
        have h3 : ¬ (p ++ x ++ xs.flatten).length ≤ b.size := by
          rw [f2.data, f3] at h2
          simp only [flat_nil, List.nil_append] at h2
          simp only [List.length_append]; omega
        simp only [if_neg h3]
        rw [direct_writes _ ⟨rfl, rfl, by show b1.done = 0; rw [f2.done]; rfl⟩]
        refine ⟨_, _, rfl, f3, ⟨rfl, rfl, by show b1.done = 0; rw [f2.done]; rfl⟩,
          (if b1.data = [] then [] else [b1.data]) ++ x :: xs, ?_, ?_, ?_⟩
        · have : b1.cur = f := f2.cur
          rw [this]
          split <;> simp
        · have : b1.data = p := by rw [f2.data]; rfl
          rw [this]
          split
          · rename_i h0; rw [h0]; simp
          · simp
        · intro w hw
          rw [List.mem_append] at hw
          rcases hw with hw | hw
          · split at hw
            · cases hw
            · rename_i h0
              rw [List.mem_singleton] at hw; rw [hw]; exact h0
          · exact hx w hw
    · rw [if_neg h1]
      simp only
      have h2 : b.data.length + x.length ≤ b.size := by omega
      rw [if_pos h2]
      simp only
      obtain ⟨b2, cs, g1, g2, g3⟩ := ih { b with data := b.data ++ x } g (p ++ x)
        ⟨by show b.data ++ x = _; rw [h.data]; simp, h.done, h.ne, h.state, h.cur, h.last, by show (b.data ++ x).length ≤ _; simpa using h2⟩
        (fun y hy => hx y (by simp [hy]))
      rw [g1]
      refine ⟨b2, _, rfl, g2, ?_⟩
      exact g3

/-! ## A frame -/

/-- Whether the last atom is the last of the stream, and no other. -/
def Lasts (l : Bool) (as : List Atom) : Prop :=
  if l then ∃ i a, as = i ++ [a] ∧ a.last = true ∧ ∀ x ∈ i, x.last = false else ∀ x ∈ as, x.last = false

/-- The lengths of the atoms of a frame of `n` bytes when `u` bytes are buffered, and what is buffered then. -/
def plan (size u n : Nat) (l : Bool) : List (Nat × Bool) × Nat :=
  if u + n ≤ size then if l then ([(u + n, true)], 0) else ([], u + n)
  else if n ≤ size then
    (if l then ((if u = 0 then [] else [(u, false)]) ++ [(n, true)], 0) else (if u = 0 then [] else [(u, false)], n))
  else ((if u = 0 then [] else [(u, false)]) ++ [(n, l)], 0)

/-- What the lengths of atoms are. -/
def Atom.shape (a : Atom) : Nat × Bool := (a.ws.flatten.length, a.last)

theorem preAtoms_shape (g : List Chunk) (h : ∀ c ∈ g, c.2 ≠ []) :
    (preAtoms g).map Atom.shape = if (flat g).length = 0 then [] else [((flat g).length, false)] := by
  have hz := flat_ne g h
  unfold preAtoms
  by_cases hg : g = []
  · rw [if_pos hg, if_pos (hz.mpr hg)]; rfl
  · rw [if_neg hg, if_neg (fun h => hg (hz.mp h))]; simp [Atom.shape, groupAtom]

theorem preAtoms_lasts (g : List Chunk) : ∀ x ∈ preAtoms g, x.last = false := by
  unfold preAtoms; split <;> simp [groupAtom]

/-- The end of a frame that is buffered. -/
theorem flush_end (b : Buffer) (g : List Chunk) (f : OFrame) (p : List UInt8) (h : Started b g f p) (hp : p ≠ []) (l : Bool) :
    ∃ b' as, b.flush true l = (b', atomCalls as) ∧ b'.size = b.size ∧
      (if l then as = [groupAtom (g ++ [(f, p)]) f true] ∧ Between b' [] else as = [] ∧ Between b' (g ++ [(f, p)])) := by
  have hne : ∀ c ∈ g ++ [(f, p)], c.2 ≠ [] := by
    intro c hc
    rcases List.mem_append.mp hc with hc | hc
    · exact h.ne c hc
    · rw [List.mem_singleton] at hc; rw [hc]; exact hp
  have hflat : flat (g ++ [(f, p)]) = b.data := by rw [h.data]; simp
  have hpos : b.data.length ≠ 0 := by
    have := List.length_pos_iff.mpr hp
    rw [h.data, List.length_append]; omega
  have hcur : b.cur = firstOf (g ++ [(f, p)]) f := by
    rw [h.cur]; cases g <;> rfl
  unfold Buffer.flush
  rw [h.state]
  simp only [if_true]
  cases l with
  | false =>
    simp only [Bool.false_eq_true, if_false]
    refine ⟨_, [], rfl, rfl, rfl, ⟨hflat.symm, by rw [hflat], hne, by simp, ?_, by rw [hflat]; exact h.fits⟩⟩
    intro c t hc
    show b.cur = _
    rw [hcur, hc]; rfl
  | true =>
    simp only [if_true, Buffer.forceFlush, if_neg hpos]
    refine ⟨_, [groupAtom (g ++ [(f, p)]) f true], Prod.ext rfl ?_, rfl, rfl, ⟨?_, rfl, by simp, ?_, ?_, by simp⟩⟩
    · simp [Atom.calls, groupAtom, hcur, hflat]
    · simp
    · simp
    · simp

theorem audio_frame (b : Buffer) (g : List Chunk) (f : OFrame) (xs : List (List UInt8)) (l : Bool) (h : Between b g) (hx : ∀ x ∈ xs, x ≠ [])
    (hne : xs ≠ []) :
    ∃ b' as g1 g2, b.calls true ([.start f] ++ xs.map .write ++ [.flush l]) = .ok (b', atomCalls as) ∧ b'.size = b.size ∧
      g ++ [(f, xs.flatten)] = g1 ++ g2 ∧ Groups false as g1 ∧ Between b' g2 ∧ Lasts l as ∧ (l = true → g2 = []) ∧
      as.map Atom.shape = (plan b.size (flat g).length xs.flatten.length l).1 ∧
      (flat g2).length = (plan b.size (flat g).length xs.flatten.length l).2 ∧
      (g2 ≠ [] → b'.cur = if (flat g).length + xs.flatten.length ≤ b.size then firstOf g f else f) := by
  have hX : xs.flatten ≠ [] := by
    obtain ⟨x, t, rfl⟩ := List.exists_cons_of_ne_nil hne
    have := hx x (by simp)
    simp [this]
  have hfne : ∀ c ∈ g ++ [(f, xs.flatten)], c.2 ≠ [] := by
    intro c hc
    rcases List.mem_append.mp hc with hc | hc
    · exact h.ne c hc
    · rw [List.mem_singleton] at hc; rw [hc]; exact hX
  have hstart : ∃ b1, b.calls true [.start f] = .ok (b1, []) ∧ Started b1 g f [] ∧ b1.size = b.size := by
    rw [Buffer.calls]
    simp only [Buffer.call, Buffer.start, h.state]
    by_cases hg : g = []
    · subst hg
      simp only [if_true]
      exact ⟨_, rfl, ⟨by rw [List.append_nil]; exact h.data, h.done, by simp, rfl, rfl, rfl, by show b.data.length ≤ _; rw [h.data]; exact h.fits⟩, rfl⟩
    · simp only [if_neg hg]
      refine ⟨_, rfl, ⟨by rw [List.append_nil]; exact h.data, h.done, h.ne, rfl, ?_, rfl, by show b.data.length ≤ _; rw [h.data]; exact h.fits⟩, rfl⟩
      obtain ⟨c, t, rfl⟩ := List.exists_cons_of_ne_nil hg
      exact h.cur c t rfl
  obtain ⟨b1, s1, s2, s3⟩ := hstart
  obtain ⟨b2, cs, w1, w2, w3⟩ := writes_started xs b1 g f [] s2 hx
  rw [bcalls_append, bcalls_append, s1]
  simp only
  rw [w1]
  simp only [Res.map, List.nil_append]
  have hfl : Buffer.calls true b2 [.flush l] = .ok (b2.flush true l) := by
    rw [Buffer.calls]
    simp only [Buffer.call]
    generalize b2.flush true l = r
    obtain ⟨x, y⟩ := r
    simp [Buffer.calls, Res.map]
  rw [hfl]
  simp only
  rw [s3] at w2 w3
  simp only [List.nil_append] at w3
  by_cases h1 : (flat g).length + xs.flatten.length ≤ b.size
  · rw [if_pos h1] at w3
    obtain ⟨rfl, w3⟩ := w3
    obtain ⟨b3, as, e1, e2, e3⟩ := flush_end b2 g f xs.flatten w3 hX l
    rw [e1]
    simp only [List.nil_append, plan, if_pos h1]
    cases l with
    | true =>
      simp only [if_true] at e3
      obtain ⟨rfl, e3⟩ := e3
      have hof := groupAtom_of (g ++ [(f, xs.flatten)]) f true (by simp) hfne
      refine ⟨b3, _, g ++ [(f, xs.flatten)], [], rfl, e2.trans w2, by simp, Groups.one hof, e3, ⟨[], _, rfl, rfl, by simp⟩, fun _ => rfl, ?_, rfl, ?_⟩
      · simp [Atom.shape, groupAtom]
      · intro h; exact absurd rfl h
    | false =>
      simp only [Bool.false_eq_true, if_false] at e3
      obtain ⟨rfl, e3⟩ := e3
      refine ⟨b3, _, [], g ++ [(f, xs.flatten)], rfl, e2.trans w2, by simp, .nil, e3, by simp [Lasts], by simp, rfl, by simp, ?_⟩
      intro _
      cases g with
      | nil => exact e3.cur _ _ rfl
      | cons c t => exact e3.cur _ _ rfl
  · rw [if_neg h1] at w3
    by_cases h2 : xs.flatten.length ≤ b.size
    · rw [if_pos h2] at w3
      obtain ⟨rfl, w3⟩ := w3
      obtain ⟨b3, as, e1, e2, e3⟩ := flush_end b2 [] f xs.flatten w3 hX l
      rw [e1]
      simp only [plan, if_neg h1, if_pos h2]
      cases l with
      | true =>
        simp only [if_true] at e3
        obtain ⟨rfl, e3⟩ := e3
        have hof := groupAtom_of ([] ++ [(f, xs.flatten)]) f true (by simp) (by simpa using hX)
        refine ⟨b3, preAtoms g ++ [groupAtom ([] ++ [(f, xs.flatten)]) f true], g ++ [(f, xs.flatten)], [], by simp, e2.trans w2, by simp, (preAtoms_groups g h.ne).append (Groups.one hof), e3,
          ⟨_, _, rfl, rfl, preAtoms_lasts g⟩, fun _ => rfl, ?_, rfl, ?_⟩
        · rw [List.map_append, preAtoms_shape g h.ne]; simp [Atom.shape, groupAtom]
        · intro h; exact absurd rfl h
      | false =>
        simp only [Bool.false_eq_true, if_false] at e3
        obtain ⟨rfl, e3⟩ := e3
        refine ⟨b3, preAtoms g, g, [(f, xs.flatten)], by simp, e2.trans w2, rfl, preAtoms_groups g h.ne, e3, by simpa [Lasts] using preAtoms_lasts g, by simp,
          ?_, by simp, ?_⟩
        · rw [preAtoms_shape g h.ne]; simp
        · intro _; exact e3.cur _ _ rfl
    · rw [if_neg h2] at w3
      obtain ⟨d, ws, q1, q2, q3⟩ := w3
      have hflush : b2.flush true l = ({ b2 with state := .initial }, [.flush l]) := by
        unfold Buffer.flush; rw [d.state]
      rw [hflush]
      simp only [plan, if_neg h1, if_neg h2]
      refine ⟨{ b2 with state := .initial }, preAtoms g ++ [⟨f, ws, l⟩], g ++ [(f, xs.flatten)], [], ?_, w2, by simp,
        (preAtoms_groups g h.ne).append (Groups.one ⟨by simp, ?_, by simp [q2], fun n _ => Fine.of_ne n _ q3⟩), ⟨d.data, d.done, by simp, rfl, by simp, by simp⟩, ?_,
        fun _ => rfl, ?_, rfl, ?_⟩
      · rw [q1]; simp [Atom.calls]
      · rintro c t hc; simp only [List.cons.injEq] at hc; rw [← hc.1]
      · cases l with
        | true => exact ⟨_, _, rfl, rfl, preAtoms_lasts g⟩
        | false =>
          simp only [Lasts, Bool.false_eq_true, if_false]
          intro x hx
          rcases List.mem_append.mp hx with hx | hx
          · exact preAtoms_lasts g x hx
          · rw [List.mem_singleton] at hx; rw [hx]
      · rw [List.map_append, preAtoms_shape g h.ne]; simp [Atom.shape, q2]
      · intro h; exact absurd rfl h

end Verif.Mts
