import Verif.PersistReadProps

/-!
# Property C11: a file of nested blocks is read back as it was written
-/

namespace Verif.Persist

open Verif.Rstream

/-! ## Specification -/

/-- Data written in pieces; `true`: appended without copying. -/
abbrev Chunks := List (Bool × List UInt8)

def Chunks.flat (c : Chunks) : List UInt8 := (c.map (·.2)).flatten

/-- A sequence of blocks, each with blocks inside: first block, then the following ones (`next`).
`leaf`: fields, end of the header, data. `plain`: data without an explicit end of the header.
`atom`: a block written in one call. `node`: fields, then the blocks inside. -/
inductive Tree where
  | nil
  | leaf (id : Nat) (fields data : Chunks) (next : Tree)
  | plain (id : Nat) (data : Chunks) (next : Tree)
  | atom (id hsize : Nat) (data : List UInt8) (next : Tree)
  | node (id : Nat) (fields : Chunks) (kids next : Tree)

/-- The calls that write the blocks. -/
def Tree.calls : Tree → List Op
  | .nil => []
  | .leaf id f d next =>
    .blockOpen id :: (wr f ++ .setHeader 0 :: (wr d ++ .blockClose :: next.calls))
  | .plain id d next => .blockOpen id :: (wr d ++ .blockClose :: next.calls)
  | .atom id hsize d next => .block id hsize d :: next.calls
  | .node id f kids next =>
    .blockOpen id :: (wr f ++ .setHeader 0x10000000 :: (kids.calls ++ .blockClose :: next.calls))
where
  wr (c : Chunks) : List Op := c.map fun x => if x.1 then Op.append x.2 else Op.write x.2

/-- Nesting of blocks. -/
def Tree.depth : Tree → Nat
  | .nil => 0
  | .leaf _ _ _ next => max 1 next.depth
  | .plain _ _ next => max 1 next.depth
  | .atom _ _ _ next => next.depth
  | .node _ _ kids next => max (kids.depth + 1) next.depth

/-- The file format. -/
def Tree.enc : Tree → List UInt8
  | .nil => []
  | .leaf id f d next => Block.bytes ⟨id, 12 + f.flat.length, f.flat ++ d.flat⟩ ++ next.enc
  | .plain id d next => Block.bytes ⟨id, 12, d.flat⟩ ++ next.enc
  | .atom id hsize d next => Block.bytes ⟨id, hsize, d⟩ ++ next.enc
  | .node id f kids next =>
    Block.bytes ⟨id, 2 ^ 28 + (12 + f.flat.length), f.flat ++ kids.enc⟩ ++ next.enc

/-- Sizes and identifiers fit in their fields. -/
def Tree.sized : Tree → Prop
  | .nil => True
  | .leaf id f d next => id < 2 ^ 32 ∧ 12 + f.flat.length < 2 ^ 28 ∧
      12 + (f.flat ++ d.flat).length < 2 ^ 32 ∧ next.sized
  | .plain id d next => id < 2 ^ 32 ∧ 12 + d.flat.length < 2 ^ 32 ∧ next.sized
  | .atom id hsize d next => id < 2 ^ 32 ∧ hsize < 2 ^ 32 ∧ hsize % 2 ^ 28 = 12 ∧
      12 + d.length < 2 ^ 32 ∧ next.sized
  | .node id f kids next => id < 2 ^ 32 ∧ 12 + f.flat.length < 2 ^ 28 ∧
      12 + (f.flat ++ kids.enc).length < 2 ^ 32 ∧ kids.sized ∧ next.sized

/-- The reader knows the blocks it knows as the writer does: it reads at most the fields written, and
agrees on whether blocks or data follow. It need not know all blocks. -/
def Tree.fits (sc : Schema) (ctx : Nat) : Tree → Prop
  | .nil => True
  | .leaf id f _ next =>
    (∀ n kids, sc ctx id = some (n, kids) → n ≤ f.flat.length ∧ kids = none) ∧ next.fits sc ctx
  | .plain id _ next => (∀ n kids, sc ctx id = some (n, kids) → n = 0 ∧ kids = none) ∧ next.fits sc ctx
  | .atom id _ _ next => (∀ n kids, sc ctx id = some (n, kids) → n = 0 ∧ kids = none) ∧ next.fits sc ctx
  | .node id f k next =>
    (∀ n kids, sc ctx id = some (n, kids) → n ≤ f.flat.length ∧
      ∃ ctx', kids = some ctx' ∧ k.fits sc ctx') ∧ next.fits sc ctx

/-- What the reader is to see. -/
def Tree.seen (sc : Schema) (ctx : Nat) : Tree → List Ev
  | .nil => []
  | .leaf id f d next =>
    (match sc ctx id with
      | some (n, _) => [.opened id (f.flat.take n), .data d.flat, .closed]
      | none => []) ++ next.seen sc ctx
  | .plain id d next =>
    (match sc ctx id with
      | some _ => [.opened id [], .data d.flat, .closed]
      | none => []) ++ next.seen sc ctx
  | .atom id _ d next =>
    (match sc ctx id with
      | some _ => [.opened id [], .data d, .closed]
      | none => []) ++ next.seen sc ctx
  | .node id f k next =>
    (match sc ctx id with
      | some (n, some ctx') => [.opened id (f.flat.take n)] ++ k.seen sc ctx' ++ [.closed]
      | _ => []) ++ next.seen sc ctx

/-- A file: header and blocks. -/
def fileBytes (type created : Nat) (body : List UInt8) : List UInt8 :=
  le32 0x66706c6b ++ (le32 (32 + body.length) ++ (le32 (2 ^ 28 + 32) ++ (le32 0 ++ (le32 10 ++
    (le32 type ++ (le32 created ++ (le32 (created / 2 ^ 32) ++ body)))))))

/-! ## Writing -/

/-- No end of the header is pending in the innermost open block. -/
def Quiet (f : Flat) : Prop := ∀ s i r, f.stack ≠ (s, i, 0) :: r

theorem specRun_append (f : Flat) (a b : List Op) :
    specRun f (a ++ b) = match specRun f a with
      | .ok f' => specRun f' b
      | .err => .err
      | .ub => .ub := by
  induction a generalizing f with
  | nil => rfl
  | cons op ops ih =>
    simp only [List.cons_append, specRun]
    cases specStep f op with
    | ok f' => exact ih f'
    | err => rfl
    | ub => rfl

theorem specRun_wr (c : Chunks) (f : Flat) (ops : List Op) :
    specRun f (Tree.calls.wr c ++ ops) = specRun (f.add c.flat) ops := by
  induction c generalizing f with
  | nil => simp [Tree.calls.wr, Chunks.flat, Flat.add]
  | cons x c ih =>
    obtain ⟨b, x⟩ := x
    have : Chunks.flat ((b, x) :: c) = x ++ Chunks.flat c := by simp [Chunks.flat]
    rw [this]
    have h2 : (f.add x).add (Chunks.flat c) = f.add (x ++ Chunks.flat c) := by simp [Flat.add]
    rw [← h2, ← ih]
    cases b <;> rfl

theorem patch_hole (a hole new c : List B) (h : new.length = hole.length) :
    patch (a ++ (hole ++ c)) a.length new = a ++ (new ++ c) := by
  unfold patch
  rw [List.take_left, List.append_assoc, h, ← List.append_assoc a hole, ← List.length_append,
    List.drop_left]

/-- The meaning of opening a block, writing `x`, and closing it. -/
theorem close_block (bytes : List B) (marks : List (Option Nat)) (st : List (Nat × Nat × Nat))
    (id hs : Nat) (x : List UInt8) :
    specStep { bytes := bytes ++ (List.replicate 12 none ++ x.map some), marks
               stack := (bytes.length, id, hs) :: st } .blockClose =
      .ok { bytes := bytes ++ (Block.bytes ⟨id, if hs = 0 then 12 else hs, x⟩).map some
            marks, stack := st } := by
  simp only [specStep, Block.bytes]
  rw [patch_hole]
  · have : (bytes ++ (List.replicate 12 none ++ x.map some)).length - bytes.length = 12 + x.length := by
      simp only [List.length_append, List.length_replicate, List.length_map]; omega
    rw [this]
    simp only [List.map_append, List.append_assoc]
  · simp [le32_length]

theorem Quiet.eq {f : Flat} (h : Quiet f) (fl : Nat) : f.setHeader fl = f := by
  unfold Flat.setHeader
  split
  · rename_i s i r e
    exact absurd e (h s i r)
  · rfl

theorem quiet_add {f : Flat} (h : Quiet f) (bs : List B) : Quiet { f with bytes := f.bytes ++ bs } := h

theorem container_or {n : Nat} (h : n < 2 ^ 28) : n ||| 0x10000000 = 2 ^ 28 + n := by
  have := Nat.two_pow_add_eq_or_of_lt h 1
  rw [Nat.or_comm, show (0x10000000 : Nat) = 2 ^ 28 * 1 from rfl, ← this, Nat.mul_one]

theorem specRun_calls (t : Tree) (f : Flat) (ops : List Op) (hs : t.sized) (hq : Quiet f)
    (hd : t.depth + f.stack.length ≤ 5) :
    specRun f (t.calls ++ ops) = specRun { f with bytes := f.bytes ++ t.enc.map some } ops := by
  induction t generalizing f ops with
  | nil => simp [Tree.calls, Tree.enc]
  | leaf id fl d next ih =>
    obtain ⟨h1, h2, h3, h4⟩ := hs
    simp only [Tree.depth] at hd
    simp only [Tree.calls, List.cons_append, List.append_assoc, specRun]
    have ho : specStep f (.blockOpen id) = .ok { f with bytes := f.bytes ++ List.replicate 12 none
                                                        stack := (f.bytes.length, id, 0) :: f.stack } := by
      simp only [specStep]
      rw [if_neg (by omega), hq.eq]
    rw [ho]
    dsimp only
    rw [specRun_wr]
    simp only [specRun, specStep, Flat.setHeader, Flat.add]
    rw [specRun_wr]
    simp only [specRun, Flat.add]
    have hl : (f.bytes ++ List.replicate 12 none ++ fl.flat.map some).length - f.bytes.length =
        12 + fl.flat.length := by
      simp only [List.length_append, List.length_replicate, List.length_map]; omega
    rw [hl, Nat.or_zero, Nat.mod_eq_of_lt (by omega)]
    have := close_block f.bytes f.marks f.stack id (12 + fl.flat.length) (fl.flat ++ d.flat)
    rw [if_neg (by omega)] at this
    simp only [List.map_append, List.append_assoc] at this ⊢
    rw [this]
    dsimp only
    rw [ih _ _ h4 (quiet_add hq _) (by dsimp only; omega)]
    simp only [Tree.enc, List.map_append, List.append_assoc]
  | plain id d next ih =>
    obtain ⟨h1, h3, h4⟩ := hs
    simp only [Tree.depth] at hd
    simp only [Tree.calls, List.cons_append, List.append_assoc, specRun]
    have ho : specStep f (.blockOpen id) = .ok { f with bytes := f.bytes ++ List.replicate 12 none
                                                        stack := (f.bytes.length, id, 0) :: f.stack } := by
      simp only [specStep]
      rw [if_neg (by omega), hq.eq]
    rw [ho]
    dsimp only
    rw [specRun_wr]
    simp only [specRun, Flat.add]
    have := close_block f.bytes f.marks f.stack id 0 d.flat
    rw [if_pos rfl] at this
    simp only [List.append_assoc] at this ⊢
    rw [this]
    dsimp only
    rw [ih _ _ h4 (quiet_add hq _) (by dsimp only; omega)]
    simp only [Tree.enc, List.map_append, List.append_assoc]
  | atom id hsize d next ih =>
    obtain ⟨h1, h2, h3, h4, h5⟩ := hs
    simp only [Tree.depth] at hd
    simp only [Tree.calls, List.cons_append, specRun, specStep]
    rw [hq.eq]
    dsimp only [Flat.add]
    rw [ih _ _ h5 (quiet_add hq _) (by dsimp only; omega)]
    simp only [Tree.enc, Block.bytes, List.map_append, List.append_assoc]
  | node id fl kids next ihk ih =>
    obtain ⟨h1, h2, h3, h4, h5⟩ := hs
    simp only [Tree.depth] at hd
    simp only [Tree.calls, List.cons_append, List.append_assoc, specRun]
    have ho : specStep f (.blockOpen id) = .ok { f with bytes := f.bytes ++ List.replicate 12 none
                                                        stack := (f.bytes.length, id, 0) :: f.stack } := by
      simp only [specStep]
      rw [if_neg (by omega), hq.eq]
    rw [ho]
    dsimp only
    rw [specRun_wr]
    simp only [specRun, specStep, Flat.setHeader, Flat.add]
    have hl : (f.bytes ++ List.replicate 12 none ++ fl.flat.map some).length - f.bytes.length =
        12 + fl.flat.length := by
      simp only [List.length_append, List.length_replicate, List.length_map]; omega
    rw [hl, container_or h2, Nat.mod_eq_of_lt (by omega)]
    rw [ihk _ _ h4 ?_ (by simp only [List.length_cons]; omega)]
    · simp only [specRun]
      have := close_block f.bytes f.marks f.stack id (2 ^ 28 + (12 + fl.flat.length)) (fl.flat ++ kids.enc)
      rw [if_neg (by omega)] at this
      simp only [List.map_append, List.append_assoc] at this ⊢
      rw [this]
      dsimp only
      rw [ih _ _ h5 (quiet_add hq _) (by dsimp only; omega)]
      simp only [Tree.enc, List.map_append, List.append_assoc]
    · intro s i r e
      simp only [List.cons.injEq, Prod.mk.injEq] at e
      omega

/-- Nesting deeper than supported is refused. -/
theorem specRun_deep (t : Tree) (f : Flat) (ops : List Op) (hs : t.sized) (hq : Quiet f)
    (h5 : f.stack.length ≤ 5) (hd : 5 < t.depth + f.stack.length) :
    specRun f (t.calls ++ ops) = .err := by
  have full : ∀ id (rest : List Op), 5 ≤ f.stack.length → specRun f (.blockOpen id :: rest) = .err := by
    intro id rest h
    simp only [specRun, specStep]
    rw [if_pos h]
  induction t generalizing f ops with
  | nil => simp only [Tree.depth] at hd; omega
  | leaf id fl d next ih =>
    by_cases h : 5 ≤ f.stack.length
    · exact full _ _ h
    · have e : (Tree.leaf id fl d next).calls ++ ops =
          (Tree.leaf id fl d .nil).calls ++ (next.calls ++ ops) := by simp [Tree.calls]
      have hn := hs.2.2.2
      rw [e, specRun_calls (Tree.leaf id fl d .nil) _ _ ⟨hs.1, hs.2.1, hs.2.2.1, trivial⟩ hq (by simp only [Tree.depth]; omega)]
      simp only [Tree.depth] at hd
      exact ih _ _ hn (quiet_add hq _) h5 (by dsimp only; omega) (fun _ _ h' => absurd h' h)
  | plain id d next ih =>
    by_cases h : 5 ≤ f.stack.length
    · exact full _ _ h
    · have e : (Tree.plain id d next).calls ++ ops =
          (Tree.plain id d .nil).calls ++ (next.calls ++ ops) := by simp [Tree.calls]
      have hn := hs.2.2
      rw [e, specRun_calls (Tree.plain id d .nil) _ _ ⟨hs.1, hs.2.1, trivial⟩ hq (by simp only [Tree.depth]; omega)]
      simp only [Tree.depth] at hd
      exact ih _ _ hn (quiet_add hq _) h5 (by dsimp only; omega) (fun _ _ h' => absurd h' h)
  | atom id hsize d next ih =>
    have e : (Tree.atom id hsize d next).calls ++ ops =
        (Tree.atom id hsize d .nil).calls ++ (next.calls ++ ops) := by simp [Tree.calls]
    have hn := hs.2.2.2.2
    rw [e, specRun_calls (Tree.atom id hsize d .nil) _ _ ⟨hs.1, hs.2.1, hs.2.2.1, hs.2.2.2.1, trivial⟩ hq
      (by simp only [Tree.depth]; omega)]
    simp only [Tree.depth] at hd
    refine ih _ _ hn (quiet_add hq _) h5 (by dsimp only; omega) ?_
    intro id rest h
    simp only [specRun, specStep]
    rw [if_pos h]
  | node id fl kids next ihk ih =>
    by_cases h : 5 ≤ f.stack.length
    · exact full _ _ h
    · simp only [Tree.depth] at hd
      by_cases hk : kids.depth + 1 + f.stack.length ≤ 5
      · have e : (Tree.node id fl kids next).calls ++ ops =
            (Tree.node id fl kids .nil).calls ++ (next.calls ++ ops) := by simp [Tree.calls]
        have hn := hs.2.2.2.2
        rw [e, specRun_calls (Tree.node id fl kids .nil) _ _ ⟨hs.1, hs.2.1, hs.2.2.1, hs.2.2.2.1, trivial⟩ hq
          (by simp only [Tree.depth]; omega)]
        exact ih _ _ hn (quiet_add hq _) h5 (by dsimp only; omega) (fun _ _ h' => absurd h' h)
      · simp only [Tree.calls, List.cons_append, List.append_assoc, specRun]
        have ho : specStep f (.blockOpen id) = .ok { f with bytes := f.bytes ++ List.replicate 12 none
                                                            stack := (f.bytes.length, id, 0) :: f.stack } := by
          simp only [specStep]
          rw [if_neg (by omega), hq.eq]
        rw [ho]
        dsimp only
        rw [specRun_wr]
        simp only [specRun, specStep, Flat.setHeader, Flat.add]
        have hl : (f.bytes ++ List.replicate 12 none ++ fl.flat.map some).length - f.bytes.length =
            12 + fl.flat.length := by
          simp only [List.length_append, List.length_replicate, List.length_map]; omega
        rw [hl, container_or hs.2.1, Nat.mod_eq_of_lt (by have := hs.2.1; omega)]
        refine ihk _ _ hs.2.2.2.1 ?_ (by simp only [List.length_cons]; omega)
          (by simp only [List.length_cons]; omega) ?_
        · intro s i r e
          simp only [List.cons.injEq, Prod.mk.injEq] at e
          omega
        · intro id rest h
          simp only [specRun, specStep]
          rw [if_pos h]

/-! ## Reading -/

theorem depth_le (t : Tree) : t.depth ≤ t.enc.length := by
  induction t with
  | nil => simp [Tree.depth]
  | leaf id f d next ih =>
    simp only [Tree.depth, Tree.enc, List.length_append, Block.bytes_length]; omega
  | plain id d next ih =>
    simp only [Tree.depth, Tree.enc, List.length_append, Block.bytes_length]; omega
  | atom id hsize d next ih =>
    simp only [Tree.depth, Tree.enc, List.length_append, Block.bytes_length]; omega
  | node id f kids next ihk ih =>
    simp only [Tree.depth, Tree.enc, List.length_append, Block.bytes_length]; omega

/-- What a handler does with a block whose fields are `fs` and whose rest is `rest`. -/
theorem handler_block {sc : Schema} {m : List UInt8} (hm : m.length < 2 ^ 64) {d ctx id n : Nat}
    {kids : Option Nat} (hsc : sc ctx id = some (n, kids)) {p : Nat} {b : Block} (hb : b.ok)
    (hh : Holds m p b) {fs rest : List UInt8} (hp : b.payload = fs ++ rest) (hn : n ≤ fs.length)
    (hs : b.hsize % 2 ^ 28 = 12 + fs.length) :
    ∃ f, handlers sc m (d + 1) ctx id = some f ∧ ∃ rs, Valid m rs ∧ bytes m rs = rest ∧
      ∀ evs, f p (b.rs p) evs = match kids with
        | some ctx' =>
            match readBlocks (handlers sc m d ctx') m (m.length + 1) rs (evs ++ [.opened id (fs.take n)]) with
            | .ok (true, evs1) => .ok (true, evs1 ++ [.closed])
            | .ok (false, evs1) => .ok (false, evs1)
            | .err => .err
            | .ub => .ub
        | none => .ok (true, evs ++ [.opened id (fs.take n), .data rest, .closed]) := by
  have hv := hh.valid hm
  have hbytes := hh.bytes
  have hlen : b.payload.length = fs.length + rest.length := by rw [hp, List.length_append]
  have hv2 : Valid m { pos := p + (12 + fs.length), fin := p + 12 + b.payload.length } :=
    ⟨by dsimp only; omega, hv.fin, hm⟩
  have hb2 : bytes m { pos := p + (12 + fs.length), fin := p + 12 + b.payload.length } = rest := by
    have := bytes_drop (m := m) (rs := b.rs p) (n := fs.length)
    rw [hbytes, hp, List.drop_left] at this
    simp only [Block.rs] at this
    rw [show p + (12 + fs.length) = p + 12 + fs.length by omega]
    exact this
  rw [handlers.eq_2]
  simp only [hsc]
  refine ⟨_, rfl, _, hv2, hb2, ?_⟩
  intro evs
  rw [read_fields hh hm, if_pos (by omega)]
  dsimp only
  rw [skipHeader_spec hh hb hm (by omega), hs, if_pos (by omega)]
  have htake : b.payload.take n = fs.take n := by
    rw [hp, List.take_append_of_le_length hn]
  rw [htake]
  cases kids with
  | some ctx' => rfl
  | none =>
    dsimp only [getLeft]
    rw [left_eq hv2]
    dsimp only
    have hbl := bytes_length hv2
    rw [hb2] at hbl
    dsimp only at hbl
    have := bytes_take hv2 (n := rest.length) (by dsimp only; omega)
    rw [hb2, List.take_length] at this
    dsimp only at this
    rw [← hbl, load_ok (by have := hv2.fin; dsimp only at this; omega), ← this]

theorem read_tree {sc : Schema} {m : List UInt8} (hm : m.length < 2 ^ 64) (t : Tree) :
    ∀ (d ctx fuel : Nat) (rs : Rs) (evs : List Ev), t.sized → t.fits sc ctx → t.depth + 1 ≤ d →
      t.enc.length < fuel → Valid m rs → bytes m rs = t.enc →
      readBlocks (handlers sc m d ctx) m fuel rs evs = .ok (true, evs ++ t.seen sc ctx) := by
  have leafCase : ∀ (d ctx fuel : Nat) (rs : Rs) (evs : List Ev) (id hs : Nat) (fs data : List UInt8)
      (next : Tree), 1 ≤ d → Block.ok ⟨id, hs, fs ++ data⟩ → hs % 2 ^ 28 = 12 + fs.length →
      (∀ n kids, sc ctx id = some (n, kids) → n ≤ fs.length ∧ kids = none) → Valid m rs →
      bytes m rs = Block.bytes ⟨id, hs, fs ++ data⟩ ++ next.enc →
      (Block.bytes ⟨id, hs, fs ++ data⟩ ++ next.enc).length < fuel →
      (∀ rs' evs', Valid m rs' → bytes m rs' = next.enc →
        readBlocks (handlers sc m d ctx) m (fuel - 1) rs' evs' = .ok (true, evs' ++ next.seen sc ctx)) →
      readBlocks (handlers sc m d ctx) m fuel rs evs = .ok (true, evs ++
        ((match sc ctx id with
          | some (n, _) => [.opened id (fs.take n), .data data, .closed]
          | none => []) ++ next.seen sc ctx)) := by
    intro d ctx fuel rs evs id hs fs data next hd hb hhs hsc hv hbs hf hnext
    obtain ⟨k, rfl⟩ : ∃ k, fuel = k + 1 := ⟨fuel - 1, by omega⟩
    obtain ⟨d, rfl⟩ : ∃ k, d = k + 1 := ⟨d - 1, by omega⟩
    obtain ⟨rs', hv', hb', hh, e⟩ :=
      readBlocks_block (h := handlers sc m (d + 1) ctx) hv hb hbs k evs
    rw [e]
    dsimp only
    cases hq : sc ctx id with
    | none =>
      have : handlers sc m (d + 1) ctx id = none := by unfold handlers; rw [hq]
      rw [this]
      dsimp only
      rw [List.nil_append]
      exact hnext rs' evs hv' hb'
    | some q =>
      obtain ⟨n, kids⟩ := q
      obtain ⟨hn, hk⟩ := hsc n kids hq
      subst hk
      obtain ⟨f, ef, rs2, _, _, er⟩ := handler_block hm hq hb hh rfl hn hhs (d := d)
      rw [ef]
      dsimp only
      rw [er]
      dsimp only
      have := hnext rs' (evs ++ [.opened id (fs.take n), .data data, .closed]) hv' hb'
      rw [Nat.add_sub_cancel] at this
      rw [this, List.append_assoc]
  induction t with
  | nil =>
    intro d ctx fuel rs evs _ _ _ hf hv hb
    obtain ⟨k, rfl⟩ : ∃ k, fuel = k + 1 := ⟨fuel - 1, by omega⟩
    rw [readBlocks_nil hv hb]
    simp [Tree.seen]
  | leaf id f dt next ih =>
    intro d ctx fuel rs evs hs hfit hd hf hv hb
    obtain ⟨h1, h2, h3, h4⟩ := hs
    simp only [Tree.depth] at hd
    refine leafCase d ctx fuel rs evs id _ f.flat dt.flat next (by omega)
      ⟨h1, by dsimp only; omega, h3⟩ (Nat.mod_eq_of_lt h2) hfit.1 hv hb hf ?_
    intro rs' evs' hv' hb'
    refine ih d ctx _ rs' evs' h4 hfit.2 (by omega) ?_ hv' hb'
    simp only [Tree.enc, List.length_append, Block.bytes_length] at hf
    omega
  | plain id dt next ih =>
    intro d ctx fuel rs evs hs hfit hd hf hv hb
    obtain ⟨h1, h3, h4⟩ := hs
    simp only [Tree.depth] at hd
    have key := leafCase d ctx fuel rs evs id 12 [] dt.flat next (by omega)
      ⟨h1, by dsimp only; omega, h3⟩ rfl (fun n kids h => ⟨by rw [(hfit.1 n kids h).1]; simp, (hfit.1 n kids h).2⟩)
      hv hb hf ?_
    · rw [key]
      simp only [Tree.seen]
      cases sc ctx id <;> simp
    · intro rs' evs' hv' hb'
      refine ih d ctx _ rs' evs' h4 hfit.2 (by omega) ?_ hv' hb'
      simp only [Tree.enc, List.length_append, Block.bytes_length] at hf
      omega
  | atom id hsz dt next ih =>
    intro d ctx fuel rs evs hs hfit hd hf hv hb
    obtain ⟨h1, h2, h3, h4, h5⟩ := hs
    simp only [Tree.depth] at hd
    have key := leafCase d ctx fuel rs evs id hsz [] dt next (by omega)
      ⟨h1, h2, h4⟩ h3 (fun n kids h => ⟨by rw [(hfit.1 n kids h).1]; simp, (hfit.1 n kids h).2⟩)
      hv hb hf ?_
    · rw [key]
      simp only [Tree.seen]
      cases sc ctx id <;> simp
    · intro rs' evs' hv' hb'
      refine ih d ctx _ rs' evs' h5 hfit.2 (by omega) ?_ hv' hb'
      simp only [Tree.enc, List.length_append, Block.bytes_length] at hf
      omega
  | node id f kids next ihk ih =>
    intro d ctx fuel rs evs hs hfit hd hf hv hbs
    obtain ⟨h1, h2, h3, h4, h5⟩ := hs
    simp only [Tree.depth] at hd
    obtain ⟨k, rfl⟩ : ∃ k, fuel = k + 1 := ⟨fuel - 1, by omega⟩
    obtain ⟨d, rfl⟩ : ∃ k, d = k + 1 := ⟨d - 1, by omega⟩
    have hb : Block.ok ⟨id, 2 ^ 28 + (12 + f.flat.length), f.flat ++ kids.enc⟩ :=
      ⟨h1, by dsimp only; omega, h3⟩
    obtain ⟨rs', hv', hb', hh, e⟩ :=
      readBlocks_block (h := handlers sc m (d + 1) ctx) hv hb hbs k evs
    have hk : next.enc.length < k := by
      simp only [Tree.enc, List.length_append, Block.bytes_length] at hf; omega
    rw [e]
    dsimp only
    cases hq : sc ctx id with
    | none =>
      have : handlers sc m (d + 1) ctx id = none := by unfold handlers; rw [hq]
      rw [this]
      dsimp only
      simp only [Tree.seen, hq, List.nil_append]
      exact ih (d + 1) ctx k rs' evs h5 hfit.2 (by omega) hk hv' hb'
    | some q =>
      obtain ⟨n, ks⟩ := q
      obtain ⟨hn, ctx', hks, hkf⟩ := hfit.1 n ks hq
      subst hks
      obtain ⟨g, ef, rs2, hv2, hb2, er⟩ := handler_block hm hq hb hh rfl hn
        (by dsimp only; omega) (d := d)
      rw [ef]
      dsimp only
      rw [er]
      dsimp only
      have hke : kids.enc.length < m.length + 1 := by
        have := bytes_length hv2; rw [hb2] at this
        have := hv2.fin; omega
      rw [ihk d ctx' _ rs2 _ h4 hkf (by omega) hke hv2 hb2]
      dsimp only
      rw [ih (d + 1) ctx k rs' _ h5 hfit.2 (by omega) hk hv' hb']
      simp only [Tree.seen, hq, List.append_assoc, List.cons_append, List.nil_append]

theorem fileBytes_length (type created : Nat) (body : List UInt8) :
    (fileBytes type created body).length = 32 + body.length := by
  simp only [fileBytes, List.length_append, le32_length]
  omega

theorem load32_in {x y rest : List UInt8} {n p : Nat} (hn : n < 2 ^ 32) (hx : x.length = p)
    (h : y = x ++ (le32 n ++ rest)) : load32 y p = .ok n := load32_at' hn h hx.symm

/-- The file header is accepted and the blocks are what is left. -/
theorem header_read {h8 h12 type : Nat} {a b : List UInt8} (hu : h8 &&& sizeMask = 32)
    (h8' : h8 < 2 ^ 32) (h12' : h12 < 2 ^ 32) (ht : type < 2 ^ 32) (ha : a.length = 4) {c : List UInt8}
    (hc : c.length = 8) {m : List UInt8}
    (hm : m = le32 0x66706c6b ++ (a ++ (le32 h8 ++ (le32 h12 ++ (le32 10 ++ (le32 type ++ (c ++ b)))))))
    (hl : m.length < 2 ^ 64) :
    readFileHeader m type = .ok (.ok { pos := 32, fin := m.length }) ∧
      Valid m { pos := 32, fin := m.length } ∧ bytes m { pos := 32, fin := m.length } = b ∧
      load m 0 fileHdr = .ok (m.take 32) ∧ load32 (m.take 32) 8 = .ok h8 ∧
      load32 (m.take 32) 12 = .ok h12 := by
  have hfh : (fileHdr : Nat) = 32 := rfl
  have hlen : m.length = 32 + b.length := by
    rw [hm]; simp only [List.length_append, le32_length, ha, hc]; omega
  have hhead : m = (le32 0x66706c6b ++ (a ++ (le32 h8 ++ (le32 h12 ++ (le32 10 ++ (le32 type ++ c)))))) ++ b := by
    rw [hm]; simp only [List.append_assoc]
  have hhl : (le32 0x66706c6b ++ (a ++ (le32 h8 ++ (le32 h12 ++ (le32 10 ++ (le32 type ++ c)))))).length = 32 := by
    simp only [List.length_append, le32_length, ha, hc]
  have htk : m.take 32 = le32 0x66706c6b ++ (a ++ (le32 h8 ++ (le32 h12 ++ (le32 10 ++ (le32 type ++ c))))) := by
    conv => lhs; rw [hhead, ← hhl]
    rw [List.take_left]
  have e0 : load m 0 fileHdr = .ok (m.take 32) := by
    rw [load_ok (by omega)]; rfl
  have e1 : load32 (m.take 32) 0 = .ok 0x66706c6b :=
    load32_in (x := []) (by decide) rfl htk
  have e2 : load32 (m.take 32) 8 = .ok h8 :=
    load32_in (x := le32 0x66706c6b ++ a) h8' (by simp [le32_length, ha]) (htk.trans (by simp only [List.append_assoc]; rfl))
  have e3 : load32 (m.take 32) 12 = .ok h12 :=
    load32_in (x := le32 0x66706c6b ++ (a ++ le32 h8)) h12' (by simp [le32_length, ha]) (htk.trans (by simp only [List.append_assoc]; rfl))
  have e4 : load32 (m.take 32) 16 = .ok 10 :=
    load32_in (x := le32 0x66706c6b ++ (a ++ (le32 h8 ++ le32 h12))) (by decide)
      (by simp [le32_length, ha]) (htk.trans (by simp only [List.append_assoc]; rfl))
  have e5 : load32 (m.take 32) 20 = .ok type :=
    load32_in (x := le32 0x66706c6b ++ (a ++ (le32 h8 ++ (le32 h12 ++ le32 10)))) ht
      (by simp [le32_length, ha]) (htk.trans (by simp only [List.append_assoc]; rfl))
  refine ⟨?_, ⟨by dsimp only; omega, Nat.le_refl _, hl⟩, ?_, e0, e2, e3⟩
  · unfold readFileHeader
    rw [if_neg (by omega), e0, bind_ok', e1, bind_ok', e2, bind_ok', e4, bind_ok', e5, bind_ok', hu]
    rw [if_neg (show ¬ (0x66706c6b : Nat) ≠ magic by decide), if_neg (show ¬ type ≠ type by simp),
      if_neg (show ¬ (10 : Nat) < minVersion by decide), if_neg (show ¬ (10 : Nat) > maxVersion by decide),
      if_neg (show ¬ (32 : Nat) < fileHdr by decide), if_neg (by omega)]
  · unfold bytes
    dsimp only
    rw [List.take_length]
    conv => lhs; rw [hhead, ← hhl]
    rw [List.drop_left]

/-- C13: which file headers are accepted: exactly those of a whole header with the magic number, the
requested type, a version of 9 or 10, and a header size between 32 and the size of the file. Reading
goes on behind the header. (The lowest 28 bits of the header size count, the others are flags.) -/
theorem readFileHeader_exact {mg hs us v ty type : Nat} {a b c : List UInt8} (hmg : mg < 2 ^ 32)
    (hhs : hs < 2 ^ 32) (hv : v < 2 ^ 32) (hty : ty < 2 ^ 32)
    (ha : a.length = 4) (hc : c.length = 8) {m : List UInt8}
    (hm : m = le32 mg ++ (a ++ (le32 hs ++ (le32 us ++ (le32 v ++ (le32 ty ++ (c ++ b)))))))
    (rs : Rs) :
    readFileHeader m type = .ok (.ok rs) ↔
      mg = 0x66706c6b ∧ ty = type ∧ 9 ≤ v ∧ v ≤ 10 ∧ 32 ≤ hs % 2 ^ 28 ∧ hs % 2 ^ 28 ≤ m.length ∧
      rs = { pos := hs % 2 ^ 28, fin := m.length } := by
  have hfh : (fileHdr : Nat) = 32 := rfl
  have hlen : m.length = 32 + b.length := by
    rw [hm]; simp only [List.length_append, le32_length, ha, hc]; omega
  have hhead : m = (le32 mg ++ (a ++ (le32 hs ++ (le32 us ++ (le32 v ++ (le32 ty ++ c)))))) ++ b := by
    rw [hm]; simp only [List.append_assoc]
  have hhl : (le32 mg ++ (a ++ (le32 hs ++ (le32 us ++ (le32 v ++ (le32 ty ++ c)))))).length = 32 := by
    simp only [List.length_append, le32_length, ha, hc]
  have htk : m.take 32 = le32 mg ++ (a ++ (le32 hs ++ (le32 us ++ (le32 v ++ (le32 ty ++ c))))) := by
    conv => lhs; rw [hhead, ← hhl]
    rw [List.take_left]
  have e0 : load m 0 fileHdr = .ok (m.take 32) := by
    rw [load_ok (by omega)]; rfl
  have e1 : load32 (m.take 32) 0 = .ok mg := load32_in (x := []) hmg rfl htk
  have e2 : load32 (m.take 32) 8 = .ok hs :=
    load32_in (x := le32 mg ++ a) hhs (by simp [le32_length, ha]) (htk.trans (by simp only [List.append_assoc]; rfl))
  have e4 : load32 (m.take 32) 16 = .ok v :=
    load32_in (x := le32 mg ++ (a ++ (le32 hs ++ le32 us))) hv
      (by simp [le32_length, ha]) (htk.trans (by simp only [List.append_assoc]; rfl))
  have e5 : load32 (m.take 32) 20 = .ok ty :=
    load32_in (x := le32 mg ++ (a ++ (le32 hs ++ (le32 us ++ le32 v)))) hty
      (by simp [le32_length, ha]) (htk.trans (by simp only [List.append_assoc]; rfl))
  have hmask : hs &&& sizeMask = hs % 2 ^ 28 := mask_eq hs
  have hmagic : magic = 0x66706c6b := rfl
  have hmin : minVersion = 9 := rfl
  have hmax : maxVersion = 10 := rfl
  unfold readFileHeader
  rw [if_neg (by omega), e0, bind_ok', e1, bind_ok', e2, bind_ok', e4, bind_ok', e5, bind_ok', hmask,
    hmagic, hmin, hmax, hfh]
  generalize hs % 2 ^ 28 = y
  by_cases h1 : mg = 0x66706c6b
  · rw [if_neg (by simp [h1])]
    by_cases h2 : ty = type
    · rw [if_neg (by simp [h2])]
      by_cases h3 : v < 9
      · rw [if_pos h3]
        exact ⟨fun h => (nomatch h), fun h => absurd h.2.2.1 (by omega)⟩
      · rw [if_neg h3]
        by_cases h4 : v > 10
        · rw [if_pos h4]
          exact ⟨fun h => (nomatch h), fun h => absurd h.2.2.2.1 (by omega)⟩
        · rw [if_neg h4]
          by_cases h5 : y < 32
          · rw [if_pos h5]
            exact ⟨fun h => (nomatch h), fun h => absurd h.2.2.2.2.1 (by omega)⟩
          · rw [if_neg h5]
            by_cases h6 : y > m.length
            · rw [if_pos h6]
              exact ⟨fun h => (nomatch h), fun h => absurd h.2.2.2.2.2.1 (by omega)⟩
            · rw [if_neg h6]
              constructor
              · intro h
                injection h with h
                injection h with h
                exact ⟨h1, h2, by omega, by omega, by omega, by omega, h.symm⟩
              · intro h
                rw [h.2.2.2.2.2.2]
    · rw [if_pos h2]
      exact ⟨fun h => (nomatch h), fun h => absurd h.2.1 h2⟩
  · rw [if_pos h1]
    exact ⟨fun h => (nomatch h), fun h => absurd h.1 h1⟩

example : ∃ rs, readFileHeader (le32 0x66706c6b ++ (le32 36 ++ (le32 (2 ^ 30 + 32) ++ (le32 99 ++
    (le32 9 ++ (le32 7 ++ (List.replicate 8 0 ++ [1, 2, 3, 4]))))))) 7 = .ok (.ok rs) := ⟨⟨32, 36⟩, by decide⟩

theorem read_fileBytes (sc : Schema) (z : Nat → List UInt8 → Option (List UInt8)) {t : Tree}
    {type created ctx : Nat} (maxSize : Nat) (pool : Bool) (hs : t.sized) (hf : t.fits sc ctx)
    (ht : type < 2 ^ 32) (hl : 32 + t.enc.length < 2 ^ 32) :
    readFile sc z (fileBytes type created t.enc) type ctx maxSize pool = .ok (some (t.seen sc ctx)) := by
  generalize hm : fileBytes type created t.enc = m
  have hml : m.length = 32 + t.enc.length := by rw [← hm, fileBytes_length]
  obtain ⟨e1, hv, hb, e2, e3, e4⟩ := header_read (h8 := 2 ^ 28 + 32) (h12 := 0) (type := type) (b := t.enc)
    (a := le32 (32 + t.enc.length)) (c := le32 created ++ le32 (created / 2 ^ 32)) (m := m)
    (by decide) (by decide) (by decide) ht rfl rfl
    (by rw [← hm]; simp only [fileBytes, List.append_assoc]) (by omega)
  unfold readFile
  rw [e1]
  dsimp only
  have hi : inflate z m maxSize { pos := 32, fin := m.length } pool =
      .ok (some (m, { pos := 32, fin := m.length })) := by
    unfold inflate
    rw [e2, bind_ok', e3, bind_ok', e4, bind_ok', if_pos (by decide)]
  rw [hi]
  dsimp only
  have hd := depth_le t
  rw [read_tree hv.size t (m.length + 1) ctx (m.length + 1) _ [] hs hf (by omega) (by omega) hv hb]
  simp

/-- C11: whatever tree of blocks is written (in any pieces, copied or appended), the output is the
file format of this tree and the reader delivers the same blocks: same identifiers, fields, data and
nesting, except that blocks and fields it does not know are left out. -/
theorem tree_round_trip (sc : Schema) (z : Nat → List UInt8 → Option (List UInt8)) (t : Tree)
    (type created ctx maxSize : Nat) (pool : Bool) (hs : t.sized) (hd : t.depth ≤ 5) (hf : t.fits sc ctx)
    (ht0 : type ≠ 0) (ht : type < 2 ^ 32) (hl : 32 + t.enc.length < 2 ^ 32) :
    ∃ w out file, run (init type created, []) t.calls = .ok w ∧ close w.1 = .ok (out, file.length) ∧
      out.flatten = file.map some ∧ file = fileBytes type created t.enc ∧
      readFile sc z file type ctx maxSize pool = .ok (some (t.seen sc ctx)) := by
  have hrun := specRun_calls t (specInit type created) [] hs (by intro s i r h; exact nomatch h) hd
  rw [List.append_nil] at hrun
  simp only [specRun] at hrun
  have hout := output_exact type created t.calls
  rw [hrun] at hout
  dsimp only at hout
  obtain ⟨w, ew, hcl, _⟩ := hout
  have hlen : ((specInit type created).bytes ++ t.enc.map some).length = 32 + t.enc.length := by
    simp only [specInit, if_neg ht0, List.length_append, List.length_map, le32_length,
      List.length_replicate]
  obtain ⟨out, eo, hfl⟩ := hcl rfl (by intro h; rw [h] at hlen; simp at hlen; omega)
  refine ⟨w, out, fileBytes type created t.enc, ew, ?_, ?_, rfl, ?_⟩
  · rw [eo, hlen, fileBytes_length]
  · rw [hfl]
    unfold specClose
    rw [if_neg ht0, hlen]
    simp only [specInit, if_neg ht0]
    have := patch_hole ((le32 0x66706c6b).map some) (List.replicate 4 none)
      ((le32 (32 + t.enc.length)).map some)
      ((le32 (32 ||| 0x10000000) ++ le32 0 ++ le32 10 ++ le32 type ++ le32 created ++
        le32 (created / 2 ^ 32)).map some ++ t.enc.map some) (by simp [le32_length])
    rw [List.length_map, le32_length] at this
    simp only [List.append_assoc] at this ⊢
    rw [this]
    rw [show 32 ||| 0x10000000 = 2 ^ 28 + 32 from rfl]
    simp only [fileBytes, List.map_append, List.append_assoc]
  · exact read_fileBytes sc z maxSize pool hs hf ht hl

/-- C11: the same with compression: if zlib restores what it compressed, the reader delivers the same
blocks. -/
theorem compressed_round_trip (sc : Schema) (z : Nat → List UInt8 → Option (List UInt8)) (t : Tree)
    (type created ctx maxSize : Nat) (pool : Bool) (comp : List UInt8) (hs : t.sized) (hf : t.fits sc ctx)
    (ht : type < 2 ^ 32) (hl : 32 + t.enc.length < 2 ^ 32) (hcl : comp.length < 2 ^ 32)
    (hz : z t.enc.length comp = some t.enc) (hmax : maxSize = 0 ∨ 32 + t.enc.length ≤ maxSize) :
    readFile sc z (deflated (fileBytes type created t.enc) (2 ^ 28 + 32) comp) type ctx maxSize pool =
      .ok (some (t.seen sc ctx)) := by
  generalize hm : deflated (fileBytes type created t.enc) (2 ^ 28 + 32) comp = m
  have hdef : m = le32 0x66706c6b ++ (le32 (32 + comp.length) ++ (le32 (2 ^ 28 + 32 + 0x40000000) ++
      (le32 (32 + t.enc.length) ++ (le32 10 ++ (le32 type ++ ((le32 created ++
      le32 (created / 2 ^ 32)) ++ comp)))))) := by
    rw [← hm]
    unfold deflated
    rw [fileBytes_length]
    have h1 : (fileBytes type created t.enc).take 4 = le32 0x66706c6b := by
      unfold fileBytes; exact List.take_left' rfl
    have h2 : ((fileBytes type created t.enc).take fileHdr).drop 16 =
        le32 10 ++ (le32 type ++ (le32 created ++ le32 (created / 2 ^ 32))) := by
      have : fileBytes type created t.enc = (le32 0x66706c6b ++ le32 (32 + t.enc.length) ++
          le32 (2 ^ 28 + 32) ++ le32 0) ++ (le32 10 ++ (le32 type ++ (le32 created ++
          le32 (created / 2 ^ 32)))) ++ t.enc := by
        simp only [fileBytes, List.append_assoc]
      rw [this, List.take_left' (by rfl), List.drop_left' (by rfl)]
    rw [h1, h2]
    rw [show (2 ^ 28 + 32 ||| flagCompressed) = 2 ^ 28 + 32 + 0x40000000 from rfl,
      show (fileHdr : Nat) = 32 from rfl]
    simp only [List.append_assoc]
  have hlen : m.length = 32 + comp.length := by
    rw [hdef]; simp only [List.length_append, le32_length]; omega
  obtain ⟨e1, hv, hb, e2, e3, e4⟩ := header_read (h8 := 2 ^ 28 + 32 + 0x40000000)
    (h12 := 32 + t.enc.length) (type := type) (b := comp) (a := le32 (32 + comp.length))
    (c := le32 created ++ le32 (created / 2 ^ 32)) (m := m)
    (by decide) (by decide) hl ht rfl rfl hdef (by omega)
  unfold readFile
  rw [e1]
  dsimp only
  have hi : inflate z m maxSize { pos := 32, fin := m.length } pool =
      .ok (some (t.enc, { pos := 0, fin := t.enc.length })) := by
    have hmask : (2 ^ 28 + 32 + 0x40000000) &&& sizeMask = 32 := by decide
    unfold inflate
    rw [e2, bind_ok', e3, bind_ok', e4, bind_ok', if_neg (by decide), hmask, if_neg (by omega),
      if_neg (by omega)]
    have hcomp : load m (getLeft { pos := 32, fin := m.length }).1
        (getLeft { pos := 32, fin := m.length }).2 = .ok comp := by
      unfold getLeft
      dsimp only
      rw [left_eq hv]
      dsimp only
      have h3 := bytes_length hv
      have h4 := bytes_take hv (n := m.length - 32) (by dsimp only; omega)
      rw [hb] at h3 h4
      dsimp only at h3 h4
      rw [load_ok (by omega), ← h4, List.take_of_length_le (by omega)]
    rw [hcomp, bind_ok', show 32 + t.enc.length - 32 = t.enc.length by omega, hz]
    dsimp only
    rw [if_neg (by omega)]
  rw [hi]
  dsimp only
  have hv2 : Valid t.enc { pos := 0, fin := t.enc.length } :=
    ⟨Nat.zero_le _, Nat.le_refl _, by omega⟩
  have hb2 : bytes t.enc { pos := 0, fin := t.enc.length } = t.enc := by
    simp [bytes]
  have hd := depth_le t
  rw [read_tree hv2.size t (t.enc.length + 1) ctx (t.enc.length + 1) _ [] hs hf (by omega) (by omega) hv2 hb2]
  simp

/-- C11: deeper nesting than supported is refused by the writer. -/
theorem deep_refused (t : Tree) (type created : Nat) (hs : t.sized) (hd : 5 < t.depth) :
    run (init type created, []) t.calls = .err := by
  have h := specRun_deep t (specInit type created) [] hs (by intro s i r h; exact nomatch h)
    (by simp [specInit]) (by simpa [specInit] using hd)
  rw [List.append_nil] at h
  have := output_exact type created t.calls
  rw [h] at this
  exact this

/-- A channel block with fields and two blocks inside, one of them unknown to the reader and one with
a field the reader does not know; all hypotheses hold and the reader sees what is expected. -/
def sampleTree : Tree :=
  .node 1 [(false, [1, 2, 3, 4])]
    (.leaf 2 [(true, [5, 6])] [(false, [7]), (true, [8])] (.plain 9 [(false, [10])] .nil)) .nil

def sampleSchema : Schema
  | 0, 1 => some (4, some 1)
  | 1, 2 => some (1, none)
  | _, _ => none

example : sampleTree.sized ∧ sampleTree.depth ≤ 5 ∧ sampleTree.fits sampleSchema 0 := by
  refine ⟨?_, by decide, ?_⟩
  · simp [Tree.sized, sampleTree, Chunks.flat, Tree.enc, Block.bytes, le32]
  · simp [Tree.fits, sampleTree, sampleSchema, Chunks.flat]

example : sampleTree.seen sampleSchema 0 =
    [.opened 1 [1, 2, 3, 4], .opened 2 [5], .data [7, 8], .closed, .closed] := by decide

end Verif.Persist
