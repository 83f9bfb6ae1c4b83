import Verif.PersistWrite

/-!
# Property C12: the output of the persist writer is the written data, whatever the buffers
-/

namespace Verif.Persist

open Verif.Rstream (le32)

/-! ## Specification

The output is one byte string. A marker is a position in it. An open block is its start, its
identifier and the header size recorded so far (0 = none). -/

/-- State of the specification. -/
structure Flat where
  bytes : List B
  marks : List (Option Nat)
  stack : List (Nat × Nat × Nat)

/-- Overwrite bytes from position `p`. -/
def patch (l : List B) (p : Nat) (bs : List B) : List B := l.take p ++ bs ++ l.drop (p + bs.length)

def Flat.add (f : Flat) (bs : List UInt8) : Flat := { f with bytes := f.bytes ++ bs.map some }

/-- Record the header size of the innermost block: what was written since its start. -/
def Flat.setHeader (f : Flat) (flags : Nat) : Flat :=
  match f.stack with
  | (start, id, 0) :: rest =>
    { f with stack := (start, id, ((f.bytes.length - start) ||| flags) % 2 ^ 32) :: rest }
  | _ => f

/-- Meaning of a call. `err`: refused (nested too deep). `ub`: outside the contract of the caller
(marker not reserved, or its write does not fit in the output; closing without an open block;
offset or count outside the chain or list). -/
def specStep (f : Flat) : Op → Res Flat
  | .write bs => .ok (f.add bs)
  | .append bs => .ok (f.add bs)
  | .appendChain ch => .ok (f.add ch.flatten)
  | .appendChainN ch o n =>
    match ch with
    | [] => .ub
    | b :: _ =>
      if o ≤ b.length ∧ o + n ≤ ch.flatten.length then .ok (f.add ((ch.flatten.drop o).take n)) else .ub
  | .listData ps => .ok (f.add ps.flatten)
  | .listDataN ps n =>
    if ps ≠ [] ∧ n ≤ ps.flatten.length then .ok (f.add (ps.flatten.take n).flatten) else .ub
  | .reserve n =>
    .ok { f with bytes := f.bytes ++ List.replicate n none
                 marks := f.marks ++ [if n = 0 then none else some f.bytes.length] }
  | .mark k bs => match f.marks[k]? with
    | some (some p) =>
      if p + bs.length ≤ f.bytes.length then
        .ok { f with bytes := patch f.bytes p (bs.map some)
                     marks := f.marks.set k (some (p + bs.length)) }
      else .ub
    | _ => .ub
  | .blockOpen id =>
    if f.stack.length ≥ 5 then .err
    else .ok { f.setHeader 0x10000000 with
               bytes := f.bytes ++ List.replicate 12 none
               stack := (f.bytes.length, id, 0) :: (f.setHeader 0x10000000).stack }
  | .setHeader flags => .ok (f.setHeader flags)
  | .blockClose => match f.stack with
    | [] => .ub
    | (start, id, hsize) :: rest =>
      .ok { f with bytes := patch f.bytes start ((le32 id ++ le32 (f.bytes.length - start) ++
                                                   le32 (if hsize = 0 then 12 else hsize)).map some)
                   stack := rest }
  | .block id hsize bs =>
    .ok ((f.setHeader 0x10000000).add (le32 id ++ le32 (12 + bs.length) ++ le32 hsize ++ bs))

/-- Meaning of a history. -/
def specRun : Flat → List Op → Res Flat
  | f, [] => .ok f
  | f, op :: ops => match specStep f op with
    | .ok f' => specRun f' ops
    | .err => .err
    | .ub => .ub

/-- The empty output, or the file header (its size is not known yet). -/
def specInit (type created : Nat) : Flat :=
  { bytes := if type = 0 then [] else
      (le32 0x66706c6b).map some ++ List.replicate 4 none ++
        (le32 (32 ||| 0x10000000) ++ le32 0 ++ le32 10 ++ le32 type ++
         le32 created ++ le32 (created / 2 ^ 32)).map some
    marks := [], stack := [] }

/-- The final output: the file header gets the total size. -/
def specClose (type : Nat) (bytes : List B) : List B :=
  if type = 0 then bytes else patch bytes 4 ((le32 bytes.length).map some)

/-! ## Proofs -/

/-- The chain kept its shape, except that its last buffer may have grown and buffers were added. -/
def Grow (o o' : List (List B)) : Prop :=
  o.length ≤ o'.length ∧ ∀ i, i < o.length →
    (o.take i).flatten.length = (o'.take i).flatten.length ∧
    (o.getD i []).length ≤ (o'.getD i []).length

theorem Grow.refl (o : List (List B)) : Grow o o := ⟨Nat.le_refl _, fun _ _ => ⟨rfl, Nat.le_refl _⟩⟩

theorem Grow.trans {a b c : List (List B)} (h1 : Grow a b) (h2 : Grow b c) : Grow a c := by
  refine ⟨Nat.le_trans h1.1 h2.1, ?_⟩
  intro i hi
  have g1 := h1.2 i hi
  have g2 := h2.2 i (Nat.lt_of_lt_of_le hi h1.1)
  exact ⟨g1.1.trans g2.1, Nat.le_trans g1.2 g2.2⟩

theorem grow_append (o x : List (List B)) : Grow o (o ++ x) := by
  refine ⟨by simp, ?_⟩
  intro i hi
  refine ⟨by rw [List.take_append_of_le_length (Nat.le_of_lt hi)], ?_⟩
  simp [List.getD_eq_getElem?_getD, List.getElem?_append_left hi]

theorem extendLast_flatten : ∀ (o : List (List B)) (bs : List B),
    (extendLast o bs).flatten = o.flatten ++ bs
  | [], bs => by simp [extendLast]
  | [b], bs => by simp [extendLast]
  | b :: b' :: rest, bs => by
    simp only [extendLast, List.flatten_cons, extendLast_flatten (b' :: rest) bs]
    simp

theorem extendLast_ne (o : List (List B)) (bs : List B) : extendLast o bs ≠ [] := by
  match o with
  | [] | [_] | _ :: _ :: _ => simp [extendLast]

theorem grow_extendLast : ∀ (o : List (List B)) (bs : List B), Grow o (extendLast o bs)
  | [], bs => ⟨Nat.zero_le _, fun i hi => absurd hi (Nat.not_lt_zero i)⟩
  | [b], bs => by
    refine ⟨by simp [extendLast], ?_⟩
    intro i hi
    have : i = 0 := by simp at hi; exact hi
    subst this
    simp [extendLast]
  | b :: b' :: rest, bs => by
    have ih := grow_extendLast (b' :: rest) bs
    refine ⟨?_, ?_⟩
    · simpa [extendLast] using ih.1
    · intro i hi
      cases i with
      | zero => simp [extendLast]
      | succ i =>
        have := ih.2 i (by simpa using hi)
        simp only [extendLast, List.take_succ_cons, List.flatten_cons, List.length_append,
          List.getD_cons_succ]
        exact ⟨by omega, this.2⟩

theorem fill_spec : ∀ (fuel : Nat) (out : List (List B)) (room : Nat) (bs : List B),
    (bs.length ≤ room ∨ 1 ≤ room ∧ bs.length < fuel ∨ bs.length + 1 < fuel) → 1 ≤ fuel →
    ∃ out' room', fill fuel out room bs = .ok (out', room') ∧
      out'.flatten = out.flatten ++ bs ∧ Grow out out' ∧ out' ≠ []
  | 0, _, _, _, _, h => by omega
  | fuel + 1, out, room, bs, h, _ => by
    unfold fill
    by_cases hl : bs.length ≤ room
    · rw [if_pos hl]
      exact ⟨_, _, rfl, extendLast_flatten _ _, grow_extendLast _ _, extendLast_ne _ _⟩
    · rw [if_neg hl]
      have hb : 1 ≤ bufSize := by decide
      have hlen : (bs.drop room).length = bs.length - room := List.length_drop
      obtain ⟨out', room', e, h1, h2, h3⟩ := fill_spec fuel
        (extendLast out (bs.take room) ++ [[]]) bufSize (bs.drop room)
        (by rw [hlen]; omega) (by omega)
      refine ⟨out', room', e, ?_, ?_, h3⟩
      · rw [h1, List.flatten_append, extendLast_flatten]
        simp
      · exact ((grow_extendLast _ _).trans (grow_append _ _)).trans h2

/-- The marker denotes position `p` of the output. -/
structure At (out : List (List B)) (m : Marker) (p : Nat) : Prop where
  idx : m.idx < out.length
  off : m.off ≤ (out.getD m.idx []).length
  abs : (out.take m.idx).flatten.length + m.off = p

theorem At.grow {o o' : List (List B)} {m : Marker} {p : Nat} (h : At o m p) (g : Grow o o') :
    At o' m p := by
  obtain ⟨h1, h2, h3⟩ := h
  have := g.2 m.idx h1
  exact ⟨Nat.lt_of_lt_of_le h1 g.1, by omega, by omega⟩

/-- A block of the model and one of the specification. -/
structure BlkRel (out : List (List B)) (b : Blk) (s : Nat × Nat × Nat) : Prop where
  at'  : At out b.marker s.1
  size : b.marker.size = s.1
  id   : b.id = s.2.1
  hs   : b.hsize = s.2.2

/-- A marker of the model and one of the specification. -/
def MarkRel (out : List (List B)) : Option Marker → Option Nat → Prop
  | none, none => True
  | some m, some p => At out m p
  | _, _ => False

/-- The lists have the same length and corresponding elements are related. -/
inductive All2 {α β : Type} (R : α → β → Prop) : List α → List β → Prop where
  | nil : All2 R [] []
  | cons {a : α} {b : β} {l : List α} {l' : List β} (h : R a b) (t : All2 R l l') :
      All2 R (a :: l) (b :: l')

/-- Simulation relation between model and specification. -/
structure Rel (w : World) (f : Flat) : Prop where
  bytes : w.1.out.flatten = f.bytes
  size  : w.1.size = f.bytes.length
  used  : w.1.used = true → w.1.out ≠ []
  stack : All2 (BlkRel w.1.out) w.1.blocks f.stack
  marks : All2 (MarkRel w.1.out) w.2 f.marks
  hdr   : w.1.header = true → At w.1.out { size := 0, idx := 0, off := 8 } 8

theorem MarkRel.grow {o o' : List (List B)} {m : Option Marker} {p : Option Nat}
    (h : MarkRel o m p) (g : Grow o o') : MarkRel o' m p := by
  match m, p, h with
  | none, none, _ => trivial
  | some m, some p, h => exact At.grow h g

theorem BlkRel.grow {o o' : List (List B)} {b : Blk} {s : Nat × Nat × Nat}
    (h : BlkRel o b s) (g : Grow o o') : BlkRel o' b s := ⟨h.at'.grow g, h.size, h.id, h.hs⟩

theorem All2.imp {α β : Type} {R S : α → β → Prop} {l : List α} {l' : List β}
    (h : All2 R l l') (hi : ∀ a b, R a b → S a b) : All2 S l l' := by
  induction h with
  | nil => exact .nil
  | cons h _ ih => exact .cons (hi _ _ h) ih

theorem All2.length {α β : Type} {R : α → β → Prop} {l : List α} {l' : List β}
    (h : All2 R l l') : l.length = l'.length := by
  induction h with
  | nil => rfl
  | cons _ _ ih => simp [ih]

theorem All2.concat {α β : Type} {R : α → β → Prop} {l : List α} {l' : List β}
    (h : All2 R l l') {a : α} {b : β} (hab : R a b) : All2 R (l ++ [a]) (l' ++ [b]) := by
  induction h with
  | nil => exact .cons hab .nil
  | cons h _ ih => exact .cons h ih

theorem All2.get {α β : Type} {R : α → β → Prop} {l : List α} {l' : List β}
    (h : All2 R l l') {k : Nat} {b : β} (hk : l'[k]? = some b) : ∃ a, l[k]? = some a ∧ R a b := by
  induction h generalizing k with
  | nil => exact nomatch hk
  | @cons a0 b0 _ _ h _ ih =>
    cases k with
    | zero =>
      simp only [List.getElem?_cons_zero, Option.some.injEq] at hk
      subst hk
      exact ⟨a0, rfl, h⟩
    | succ k => exact ih (by simpa using hk)

theorem All2.set {α β : Type} {R : α → β → Prop} {l : List α} {l' : List β}
    (h : All2 R l l') {k : Nat} {a : α} {b : β} (hab : R a b) : All2 R (l.set k a) (l'.set k b) := by
  induction h generalizing k with
  | nil => exact .nil
  | cons h t ih =>
    cases k with
    | zero => exact .cons hab t
    | succ k => exact .cons h ih

theorem rel_extend {c c' : Ctx} {ms : List (Option Marker)} {f : Flat} {bs : List B}
    (h : Rel (c, ms) f) (hf : c'.out.flatten = c.out.flatten ++ bs) (hg : Grow c.out c'.out)
    (hs : c'.size = c.size + bs.length) (hb : c'.blocks = c.blocks) (hh : c'.header = c.header)
    (hu : c'.used = true → c'.out ≠ []) :
    Rel (c', ms) { f with bytes := f.bytes ++ bs } := by
  obtain ⟨h1, h2, h3, h4, h5, h6⟩ := h
  refine ⟨?_, ?_, hu, ?_, ?_, fun g => (h6 (hh.symm.trans g)).grow hg⟩
  · simp only [hf, h1]
  · have h2' : c.size = f.bytes.length := h2
    simp only [hs, h2', List.length_append]
  · simp only [hb]
    exact h4.imp (fun _ _ h => h.grow hg)
  · exact h5.imp (fun _ _ h => h.grow hg)

theorem append_props (c : Ctx) (bs : List B) :
    (append c bs).out = c.out ++ [bs] ∧ (append c bs).size = c.size + bs.length ∧
    (append c bs).blocks = c.blocks ∧ (append c bs).used = false ∧
    (append c bs).header = c.header := by
  unfold append
  cases c.used <;> simp [flushBuf]

theorem append_rel {c : Ctx} {ms : List (Option Marker)} {f : Flat} (bs : List B)
    (h : Rel (c, ms) f) : Rel (append c bs, ms) { f with bytes := f.bytes ++ bs } := by
  obtain ⟨h1, h2, h3, h4, h5⟩ := append_props c bs
  refine rel_extend h ?_ ?_ h2 h3 h5 ?_
  · rw [h1]; simp
  · rw [h1]; exact grow_append _ _
  · rw [h4]; exact fun h => nomatch h

theorem put_rel {c : Ctx} {ms : List (Option Marker)} {f : Flat} (bs : List B)
    (h : Rel (c, ms) f) : ∃ c', put c bs = .ok c' ∧ c'.blocks = c.blocks ∧ c'.header = c.header ∧
      Grow (if c.used then c.out else c.out ++ [[]]) c'.out ∧
      Rel (c', ms) { f with bytes := f.bytes ++ bs } := by
  unfold put
  dsimp only
  have hfl : (if c.used = true then c.out else c.out ++ [[]]).flatten = c.out.flatten := by
    split <;> simp
  have hgr : Grow c.out (if c.used = true then c.out else c.out ++ [[]]) := by
    split
    · exact Grow.refl _
    · exact grow_append _ _
  generalize (if c.used = true then c.out else c.out ++ [[]]) = out at *
  obtain ⟨out', room', e, h1, h2, h3⟩ := fill_spec (bs.length + 2) out c.room bs
    (by omega) (by omega)
  rw [e]
  refine ⟨_, rfl, rfl, rfl, h2, rel_extend h ?_ (hgr.trans h2) rfl rfl rfl (fun _ => h3)⟩
  rw [h1, hfl]

theorem write_rel {c : Ctx} {ms : List (Option Marker)} {f : Flat} (bs : List B)
    (h : Rel (c, ms) f) : ∃ c', write c bs = .ok c' ∧ c'.blocks = c.blocks ∧ c'.header = c.header ∧
      Rel (c', ms) { f with bytes := f.bytes ++ bs } := by
  unfold write
  by_cases hb : bs.length ≤ 0
  · rw [if_pos hb]
    have : bs = [] := List.length_eq_zero_iff.1 (by omega)
    subst this
    exact ⟨c, rfl, rfl, rfl, by simpa using h⟩
  · rw [if_neg hb]
    obtain ⟨c', e, h1, h2, _, h3⟩ := put_rel bs h
    exact ⟨c', e, h1, h2, h3⟩

theorem At.mk_last {out : List (List B)} (h : out ≠ []) (size : Nat) :
    At out { size := size, idx := out.length - 1,
             off := match out.getLast? with | some b => b.length | none => 0 } out.flatten.length := by
  have hlen : 0 < out.length := List.length_pos_iff.2 h
  have hl : out.getLast? = some (out.getLast h) := List.getLast?_eq_some_getLast h
  have hd : out = out.take (out.length - 1) ++ [out.getLast h] := by
    rw [← List.dropLast_eq_take, List.dropLast_concat_getLast]
  have hg : out.getD (out.length - 1) [] = out.getLast h := by
    rw [List.getD_eq_getElem?_getD, ← List.getLast?_eq_getElem?, hl]; rfl
  refine ⟨by dsimp only; omega, ?_, ?_⟩
  · dsimp only; rw [hl, hg]; exact Nat.le_refl _
  · dsimp only
    rw [hl]
    conv => rhs; rw [hd]
    rw [List.flatten_append, List.length_append]
    simp only [List.flatten_cons, List.flatten_nil, List.append_nil]

theorem reserve_rel {c : Ctx} {ms : List (Option Marker)} {f : Flat} (n : Nat)
    (h : Rel (c, ms) f) : ∃ o c', reserve c n = .ok (o, c') ∧ c'.blocks = c.blocks ∧
      c'.header = c.header ∧
      Rel (c', ms) { f with bytes := f.bytes ++ List.replicate n none } ∧
      MarkRel c'.out o (if n = 0 then none else some f.bytes.length) ∧
      ∀ m, o = some m → m.size = f.bytes.length := by
  unfold reserve
  by_cases hn : n ≤ 0
  · rw [if_pos hn]
    have : n = 0 := by omega
    subst this
    refine ⟨none, c, rfl, rfl, rfl, by simpa using h, trivial, (fun m hm => nomatch hm)⟩
  · rw [if_neg hn]
    obtain ⟨c', e, h1, h2, hg, h3⟩ := put_rel (List.replicate n none) h
    dsimp only
    rw [e]
    refine ⟨_, c', rfl, h1, h2, h3, ?_, ?_⟩
    · rw [if_neg (show ¬ n = 0 by omega)]
      have hfl : (if c.used = true then c.out else c.out ++ [[]]).flatten = f.bytes := by
        rw [← h.bytes]; split <;> simp
      have hne : (if c.used = true then c.out else c.out ++ [[]]) ≠ [] := by
        split
        · rename_i hu; exact h.used hu
        · simp
      have := (At.mk_last hne c.size).grow hg
      rw [hfl] at this
      exact this
    · intro m hm
      cases hm
      exact h.size

theorem overwrite_length (b : List B) (off : Nat) (bs : List B) (h : off + bs.length ≤ b.length) :
    (overwrite b off bs).length = b.length := by
  unfold overwrite
  simp only [List.length_append, List.length_take, List.length_drop]
  omega

theorem markLoop_spec : ∀ (part : List (List B)) (off : Nat) (bs : List B), part ≠ [] →
    off ≤ (part.getD 0 []).length → off + bs.length ≤ part.flatten.length →
    ∃ part' k off', markLoop part off bs = .ok (part', k, off') ∧
      part'.map List.length = part.map List.length ∧ part'.flatten = patch part.flatten off bs ∧
      k < part.length ∧ off' ≤ (part'.getD k []).length ∧
      (part'.take k).flatten.length + off' = off + bs.length
  | [], _, _, h, _, _ => absurd rfl h
  | b :: rest, off, bs, _, hoff, hlen => by
    simp only [List.getD_cons_zero] at hoff
    unfold markLoop
    rw [if_neg (by omega)]
    dsimp only
    by_cases hl : bs.length ≤ b.length - off
    · rw [if_pos hl]
      refine ⟨_, _, _, rfl, ?_, ?_, by simp, ?_, by simp⟩
      · simp [overwrite_length b off bs (by omega)]
      · simp only [List.flatten_cons, overwrite, patch]
        rw [List.take_append_of_le_length hoff, List.drop_append_of_le_length (by omega)]
        simp
      · simp only [List.getD_cons_zero]
        rw [overwrite_length b off bs (by omega)]; omega
    · rw [if_neg hl]
      have hlen' : bs.length - (b.length - off) ≤ rest.flatten.length := by
        simp only [List.flatten_cons, List.length_append] at hlen; omega
      have hne : rest ≠ [] := by
        intro h; subst h; simp at hlen'; omega
      have hdl : (bs.drop (b.length - off)).length = bs.length - (b.length - off) := List.length_drop
      obtain ⟨part', k, off', e, h1, h2, h3, h4, h5⟩ := markLoop_spec rest 0
        (bs.drop (b.length - off)) hne (Nat.zero_le _) (by rw [hdl]; omega)
      rw [e]
      have htl : (bs.take (b.length - off)).length = b.length - off := by
        rw [List.length_take]; omega
      have how : (overwrite b off (bs.take (b.length - off))).length = b.length :=
        overwrite_length _ _ _ (by rw [htl]; omega)
      refine ⟨_, _, _, rfl, ?_, ?_, by simp; omega, ?_, ?_⟩
      · simp [how, h1]
      · simp only [List.flatten_cons, h2, patch, overwrite, htl]
        have e1 : b.drop (off + (b.length - off)) = [] := List.drop_eq_nil_of_le (by omega)
        have e2 : (b ++ rest.flatten).drop (off + bs.length) =
            rest.flatten.drop (0 + (bs.drop (b.length - off)).length) := by
          rw [List.drop_append, List.drop_eq_nil_of_le (by omega), hdl, List.nil_append]
          congr 1; omega
        rw [e1, e2, List.take_append_of_le_length hoff]
        simp only [List.take_zero, List.nil_append, List.append_nil, List.append_assoc]
        rw [← List.append_assoc (bs.take _), List.take_append_drop]
      · simpa using h4
      · simp only [List.take_succ_cons, List.flatten_cons, List.length_append, how]
        omega

theorem lens_flatten {a b : List (List B)} (h : a.map List.length = b.map List.length) :
    a.flatten.length = b.flatten.length := by
  rw [List.length_flatten, List.length_flatten, h]

theorem grow_of_lens {a b : List (List B)} (h : a.map List.length = b.map List.length) :
    Grow a b := by
  have hlen : a.length = b.length := by have := congrArg List.length h; simpa using this
  refine ⟨Nat.le_of_eq hlen, ?_⟩
  intro i hi
  refine ⟨lens_flatten (by rw [List.map_take, List.map_take, h]), ?_⟩
  have : (a.map List.length)[i]? = (b.map List.length)[i]? := by rw [h]
  rw [List.getElem?_map, List.getElem?_map] at this
  simp only [List.getD_eq_getElem?_getD]
  cases ha : a[i]? <;> cases hb : b[i]? <;> simp_all

theorem markerWrite_rel {c : Ctx} {ms : List (Option Marker)} {f : Flat} {m : Marker} {p : Nat}
    (bs : List B) (h : Rel (c, ms) f) (hm : At c.out m p) (hp : p + bs.length ≤ f.bytes.length) :
    ∃ m' c', markerWrite c m bs = .ok (m', c') ∧ c'.blocks = c.blocks ∧ c'.header = c.header ∧
      At c'.out m' (p + bs.length) ∧ Grow c.out c'.out ∧
      Rel (c', ms) { f with bytes := patch f.bytes p bs } := by
  obtain ⟨h1, h2, h3⟩ := hm
  have hb := h.bytes
  simp only at hb
  have hsplit : c.out = c.out.take m.idx ++ c.out.drop m.idx := (List.take_append_drop _ _).symm
  have hfl : f.bytes = (c.out.take m.idx).flatten ++ (c.out.drop m.idx).flatten := by
    rw [← hb, ← List.flatten_append, List.take_append_drop]
  have htk : (c.out.take m.idx).length = m.idx := by rw [List.length_take]; omega
  obtain ⟨part', k, off', e, g1, g2, g3, g4, g5⟩ := markLoop_spec (c.out.drop m.idx) m.off bs
    (by intro hn; have := congrArg List.length hn; simp at this; omega)
    (by simpa [List.getD_eq_getElem?_getD] using h2)
    (by rw [hfl] at hp; simp only [List.length_append] at hp; omega)
  unfold markerWrite
  rw [e]
  have hlens : c.out.map List.length = (c.out.take m.idx ++ part').map List.length := by
    rw [List.map_append, g1, ← List.map_append, List.take_append_drop]
  have hgrow := grow_of_lens hlens
  have hplen : part'.length = (c.out.drop m.idx).length := by
    have := congrArg List.length g1; simpa using this
  refine ⟨_, _, rfl, rfl, rfl, ⟨?_, ?_, ?_⟩, hgrow, ⟨?_, ?_, ?_, ?_, ?_, fun g => (h.hdr g).grow hgrow⟩⟩
  · simp only [List.length_append, htk, hplen]; omega
  · dsimp only
    rw [List.getD_eq_getElem?_getD, List.getElem?_append_right (by omega), htk,
      Nat.add_sub_cancel_left, ← List.getD_eq_getElem?_getD]
    exact g4
  · dsimp only
    rw [List.take_append, htk, Nat.add_sub_cancel_left,
      List.take_of_length_le (l := c.out.take m.idx) (by omega)]
    simp only [List.flatten_append, List.length_append]
    omega
  · dsimp only
    rw [List.flatten_append, g2, hfl]
    simp only [patch]
    rw [List.take_append, List.drop_append,
      List.take_of_length_le (l := (c.out.take m.idx).flatten) (by omega),
      List.drop_eq_nil_of_le (as := (c.out.take m.idx).flatten) (by omega)]
    have e1 : p - (c.out.take m.idx).flatten.length = m.off := by omega
    have e2 : p + bs.length - (c.out.take m.idx).flatten.length = m.off + bs.length := by omega
    rw [e1, e2]
    simp
  · have := h.size
    simp only [patch, List.length_append, List.length_take, List.length_drop] at *
    omega
  · intro hu hn
    have := congrArg List.length hlens
    simp only [List.length_map] at this
    dsimp only at hn
    rw [hn] at this
    simp only [List.length_nil] at this
    omega
  · exact h.stack.imp (fun _ _ h => h.grow hgrow)
  · exact h.marks.imp (fun _ _ h => h.grow hgrow)

theorem setHeader_rel {c : Ctx} {ms : List (Option Marker)} {f : Flat} (flags : Nat)
    (h : Rel (c, ms) f) : Rel (setHeader c flags, ms) (f.setHeader flags) ∧
      (setHeader c flags).header = c.header := by
  obtain ⟨h1, h2, h3, h4, h5, h6⟩ := h
  unfold setHeader Flat.setHeader
  cases hb : c.blocks with
  | nil =>
    simp only [hb] at h4
    generalize hst : f.stack = st at h4
    cases h4
    exact ⟨⟨h1, h2, h3, by simp only [hb, hst]; exact .nil, h5, h6⟩, rfl⟩
  | cons b rest =>
    simp only [hb] at h4
    generalize hst : f.stack = st at h4
    cases h4 with
    | cons hbs t =>
      rename_i s l'
      obtain ⟨s1, s2, s3⟩ := s
      obtain ⟨g1, g2, g3, g4⟩ := hbs
      simp only at g1 g2 g3 g4
      dsimp only
      by_cases hz : b.hsize ≠ 0
      · rw [if_pos hz]
        have : s3 ≠ 0 := by rw [← g4]; exact hz
        cases s3 with
        | zero => exact absurd rfl this
        | succ s3 =>
          refine ⟨⟨h1, h2, h3, ?_, h5, h6⟩, by first | rfl | trivial⟩
          simp only [hb, hst]
          exact .cons ⟨g1, g2, g3, g4⟩ t
      · rw [if_neg hz]
        have hz : b.hsize = 0 := by omega
        have : s3 = 0 := by rw [← g4]; exact hz
        subst this
        dsimp only
        refine ⟨⟨h1, h2, h3, ?_, h5, h6⟩, by first | rfl | trivial⟩
        simp only at h2
        refine .cons ⟨g1, g2, g3, ?_⟩ t
        simp only [h2, g2]

theorem setHeader_stack_length (f : Flat) (flags : Nat) :
    (f.setHeader flags).stack.length = f.stack.length ∧
    (f.setHeader flags).bytes = f.bytes ∧ (f.setHeader flags).marks = f.marks := by
  unfold Flat.setHeader
  split
  · rename_i h; simp [h]
  · exact ⟨rfl, rfl, rfl⟩

theorem setHeader_blocks_length (c : Ctx) (flags : Nat) :
    (setHeader c flags).blocks.length = c.blocks.length := by
  unfold setHeader
  split
  · rfl
  · split
    · rfl
    · rename_i h _; simp [h]

theorem blockOpen_rel {c : Ctx} {ms : List (Option Marker)} {f f' : Flat} (id : Nat)
    (h : Rel (c, ms) f) (hs : specStep f (.blockOpen id) = .ok f') :
    ∃ c', blockOpen c id = .ok c' ∧ Rel (c', ms) f' ∧ c'.header = c.header := by
  simp only [specStep] at hs
  have hlen := h.stack.length
  dsimp only at hlen
  by_cases hd : f.stack.length ≥ 5
  · rw [if_pos hd] at hs; exact nomatch hs
  · rw [if_neg hd] at hs
    cases hs
    unfold blockOpen
    rw [if_neg (by unfold maxDepth; omega)]
    obtain ⟨hr, hh⟩ := setHeader_rel flagContainer h
    obtain ⟨o, c', e, h1, h2, h3, h4, h5⟩ := reserve_rel blockHdr hr
    dsimp only
    rw [e]
    have h12 : blockHdr ≠ 0 := by decide
    rw [if_neg h12] at h4
    cases o with
    | none => exact absurd h4 (by simp [MarkRel])
    | some m =>
      dsimp only
      refine ⟨_, rfl, ?_, h2.trans hh⟩
      have hby := (setHeader_stack_length f flagContainer).2.1
      have hmk := (setHeader_stack_length f flagContainer).2.2
      obtain ⟨k1, k2, k3, k4, k5, k6⟩ := h3
      refine ⟨?_, ?_, k3, ?_, ?_, k6⟩
      · simp only at k1 ⊢; rw [k1, hby]; rfl
      · simp only at k2 ⊢; rw [k2, hby]; rfl
      · simp only at k4 ⊢
        refine .cons ⟨?_, ?_, rfl, rfl⟩ k4
        · have : At c'.out m (f.setHeader flagContainer).bytes.length := h4
          rw [hby] at this; exact this
        · have := h5 m rfl; rw [hby] at this; exact this
      · simp only at k5 ⊢; exact k5

theorem blockClose_rel {c : Ctx} {ms : List (Option Marker)} {f f' : Flat}
    (h : Rel (c, ms) f) (hs : specStep f .blockClose = .ok f')
    (hfit : ∀ s ∈ f.stack, s.1 + 12 ≤ f.bytes.length) :
    ∃ c', blockClose c = .ok c' ∧ Rel (c', ms) f' ∧ c'.header = c.header := by
  simp only [specStep] at hs
  have h4 := h.stack
  simp only at h4
  unfold blockClose
  generalize hst : f.stack = st at h4 hs hfit
  generalize hbl : c.blocks = bl at h4
  cases h4 with
  | nil => exact nomatch hs
  | cons hbs t =>
    rename_i b s rest l'
    obtain ⟨s1, s2, s3⟩ := s
    obtain ⟨g1, g2, g3, g4⟩ := hbs
    simp only at g1 g2 g3 g4
    simp only [Res.ok.injEq] at hs
    subst hs
    have hf := hfit (s1, s2, s3) (List.mem_cons_self ..)
    simp only at hf
    have hsz : c.size = f.bytes.length := h.size
    generalize hbs : (encHdr b.id (c.size - b.marker.size)
      (if b.hsize = 0 then blockHdr else b.hsize)).map some = bs
    have hblen : bs.length = 12 := by rw [← hbs]; simp [encHdr, le32]
    obtain ⟨m', c', e, h1, h2, h3, hg, hr⟩ := markerWrite_rel bs h g1 (by omega)
    dsimp only
    rw [hbs, e]
    refine ⟨_, rfl, ?_, h2⟩
    obtain ⟨k1, k2, k3, k4, k5, k6⟩ := hr
    have heq : bs = (le32 s2 ++ le32 (f.bytes.length - s1) ++
        le32 (if s3 = 0 then 12 else s3)).map some := by
      rw [← hbs, encHdr, g3, g2, g4, hsz]
      rfl
    refine ⟨?_, ?_, k3, ?_, k5, k6⟩
    · simp only at k1 ⊢; rw [k1, heq]
    · simp only at k2 ⊢; rw [k2, heq]
    · exact t.imp (fun _ _ h => h.grow hg)


/-! ## Every open block has its header inside the output -/

/-- The header of each open block was reserved. -/
def Fit (f : Flat) : Prop := ∀ s ∈ f.stack, s.1 + 12 ≤ f.bytes.length

theorem patch_length {l : List B} {p : Nat} {bs : List B} (h : p + bs.length ≤ l.length) :
    (patch l p bs).length = l.length := by
  simp only [patch, List.length_append, List.length_take, List.length_drop]
  omega

theorem fit_setHeader {f : Flat} {flags : Nat} (h : Fit f) : Fit (f.setHeader flags) := by
  unfold Flat.setHeader
  split
  · rename_i start id rest hst
    intro s hs
    rcases List.mem_cons.1 hs with hs | hs
    · subst hs; exact h (start, id, 0) (by rw [hst]; exact List.mem_cons_self ..)
    · exact h s (by rw [hst]; exact List.mem_cons_of_mem _ hs)
  · exact h

theorem fit_add {f : Flat} {bs : List B} (h : Fit f) : Fit { f with bytes := f.bytes ++ bs } := by
  intro s hs
  have := h s hs
  simp only [List.length_append]
  omega

theorem fit_step {f f' : Flat} {op : Op} (h : Fit f) (hs : specStep f op = .ok f') : Fit f' := by
  cases op with
  | write bs => cases hs; exact fit_add h
  | append bs => cases hs; exact fit_add h
  | appendChain ch => cases hs; exact fit_add h
  | appendChainN ch o n =>
    simp only [specStep] at hs
    split at hs
    · exact nomatch hs
    · split at hs
      · cases hs; exact fit_add h
      · exact nomatch hs
  | listData ps => cases hs; exact fit_add h
  | listDataN ps n =>
    simp only [specStep] at hs
    split at hs
    · cases hs; exact fit_add h
    · exact nomatch hs
  | reserve n => cases hs; exact fit_add h
  | mark k bs =>
    simp only [specStep] at hs
    split at hs
    · split at hs
      · rename_i hp
        cases hs
        intro s hm
        have := h s hm
        rw [patch_length (by simpa using hp)]
        exact this
      · exact nomatch hs
    · exact nomatch hs
  | blockOpen id =>
    simp only [specStep] at hs
    split at hs
    · exact nomatch hs
    · cases hs
      intro s hm
      simp only [List.length_append, List.length_replicate]
      rcases List.mem_cons.1 hm with hm | hm
      · subst hm; simp
      · have := fit_setHeader (flags := 0x10000000) h s hm
        rw [(setHeader_stack_length f _).2.1] at this
        omega
  | setHeader flags => cases hs; exact fit_setHeader h
  | blockClose =>
    simp only [specStep] at hs
    split at hs
    · exact nomatch hs
    · rename_i start id hsize rest hst
      cases hs
      intro s hm
      have h0 := h (start, id, hsize) (by rw [hst]; exact List.mem_cons_self ..)
      have := h s (by rw [hst]; exact List.mem_cons_of_mem _ hm)
      dsimp only
      rw [patch_length]
      · exact this
      · simp only at h0
        simp [le32]
        omega
  | block id hsize bs => cases hs; exact fit_add (fit_setHeader h)

theorem appendChain_rel {ms : List (Option Marker)} : ∀ (ch : List (List B)) {c : Ctx} {f : Flat},
    Rel (c, ms) f → Rel (appendChain c ch, ms) { f with bytes := f.bytes ++ ch.flatten } ∧
      (appendChain c ch).header = c.header
  | [], c, f, h => by simpa [appendChain] using h
  | b :: rest, c, f, h => by
    have h1 := append_rel b h
    obtain ⟨h2, h3⟩ := appendChain_rel rest h1
    simp only [List.append_assoc] at h2
    exact ⟨by simpa [appendChain] using h2, h3.trans (append_props c b).2.2.2.2⟩

theorem appendChainLoop_rel {ms : List (Option Marker)} : ∀ (ch : List (List B)) (n : Nat) {c : Ctx}
    {f : Flat}, Rel (c, ms) f → ch ≠ [] → n ≤ ch.flatten.length →
    ∃ c', appendChainLoop c ch n = .ok c' ∧ c'.header = c.header ∧
      Rel (c', ms) { f with bytes := f.bytes ++ ch.flatten.take n }
  | [], _, _, _, _, h, _ => absurd rfl h
  | b :: rest, n, c, f, h, _, hn => by
    unfold appendChainLoop
    by_cases hl : n ≤ b.length
    · rw [if_pos hl]
      refine ⟨_, rfl, (append_props c _).2.2.2.2, ?_⟩
      have := append_rel (b.take n) h
      rw [List.flatten_cons, List.take_append_of_le_length hl]
      exact this
    · rw [if_neg hl]
      simp only [List.flatten_cons, List.length_append] at hn
      have hne : rest ≠ [] := by intro hr; subst hr; simp at hn; omega
      obtain ⟨c', e, hh, hr⟩ := appendChainLoop_rel rest (n - b.length) (append_rel b h) hne
        (by omega)
      refine ⟨c', e, hh.trans (append_props c b).2.2.2.2, ?_⟩
      simp only [List.append_assoc] at hr
      rw [List.flatten_cons, List.take_append, List.take_of_length_le (l := b) (by omega)]
      exact hr

theorem listData_rel {ms : List (Option Marker)} : ∀ (ps : List (List B)) {c : Ctx} {f : Flat},
    Rel (c, ms) f → ∃ c', listData c ps = .ok c' ∧ c'.header = c.header ∧
      Rel (c', ms) { f with bytes := f.bytes ++ ps.flatten }
  | [], c, f, h => ⟨c, rfl, rfl, by simpa using h⟩
  | b :: rest, c, f, h => by
    obtain ⟨c1, e1, _, hh1, h1⟩ := write_rel b h
    obtain ⟨c2, e2, hh2, h2⟩ := listData_rel rest h1
    refine ⟨c2, ?_, hh2.trans hh1, ?_⟩
    · simp only [listData, e1, e2]
    · simpa using h2

theorem listDataN_rel {ms : List (Option Marker)} : ∀ (ps : List (List (List B))) (n : Nat) {c : Ctx}
    {f : Flat}, Rel (c, ms) f → ps ≠ [] → n ≤ ps.flatten.length →
    ∃ c', listDataN c ps n = .ok c' ∧ c'.header = c.header ∧
      Rel (c', ms) { f with bytes := f.bytes ++ (ps.flatten.take n).flatten }
  | [], _, _, _, _, h, _ => absurd rfl h
  | p :: rest, n, c, f, h, _, hn => by
    unfold listDataN
    by_cases hl : p.length ≥ n
    · rw [if_pos hl, List.flatten_cons, List.take_append_of_le_length hl]
      obtain ⟨c', e, _, hh, hr⟩ := write_rel (p.take n).flatten h
      exact ⟨c', e, hh, hr⟩
    · rw [if_neg hl]
      simp only [List.flatten_cons, List.length_append] at hn
      have hne : rest ≠ [] := by intro hr; subst hr; simp at hn; omega
      obtain ⟨c1, e1, _, hh1, h1⟩ := write_rel p.flatten h
      obtain ⟨c2, e2, hh2, h2⟩ := listDataN_rel rest (n - p.length) h1 hne (by omega)
      refine ⟨c2, by simp only [e1, e2], hh2.trans hh1, ?_⟩
      simp only [List.append_assoc] at h2
      rw [List.flatten_cons, List.take_append, List.take_of_length_le (l := p) (by omega),
        List.flatten_append]
      exact h2

/-- One call does what the specification says. -/
theorem step_rel {w : World} {f f' : Flat} {op : Op} (h : Rel w f) (hfit : Fit f)
    (hs : specStep f op = .ok f') :
    ∃ w', step w op = .ok w' ∧ Rel w' f' ∧ w'.1.header = w.1.header := by
  obtain ⟨c, ms⟩ := w
  cases op with
  | write bs =>
    cases hs
    obtain ⟨c', e, _, hh, hr⟩ := write_rel (bs.map some) h
    exact ⟨(c', ms), by simp only [step, e, Res.map], hr, hh⟩
  | append bs =>
    cases hs
    exact ⟨(append c (bs.map some), ms), rfl, append_rel _ h, (append_props c _).2.2.2.2⟩
  | appendChain ch =>
    cases hs
    obtain ⟨h1, h2⟩ := appendChain_rel (ch.map (·.map some)) h
    refine ⟨_, rfl, ?_, h2⟩
    rw [← List.map_flatten] at h1
    exact h1
  | appendChainN ch o n =>
    simp only [specStep] at hs
    cases ch with
    | nil => exact nomatch hs
    | cons b rest =>
      dsimp only at hs
      split at hs
      · rename_i hc
        cases hs
        obtain ⟨hc1, hc2⟩ := hc
        simp only [List.flatten_cons, List.length_append] at hc2
        obtain ⟨c', e, hh, hr⟩ := appendChainLoop_rel
          ((b.map some).drop o :: rest.map (·.map some)) n h (by simp) (by
            simp only [List.flatten_cons, List.length_append, List.length_drop, List.length_map,
              ← List.map_flatten]
            omega)
        refine ⟨(c', ms), ?_, ?_, hh⟩
        · simp only [step, appendChainN, List.map_cons, List.length_map,
            if_neg (Nat.not_lt.2 hc1), e, Res.map]
        · simp only [Flat.add, List.flatten_cons, List.drop_append_of_le_length hc1]
          simp only [List.flatten_cons, ← List.map_flatten] at hr
          rw [List.map_take, List.map_append, List.map_drop]
          exact hr
      · exact nomatch hs
  | listData ps =>
    cases hs
    obtain ⟨c', e, hh, hr⟩ := listData_rel (ps.map (·.map some)) h
    refine ⟨(c', ms), by simp only [step, e, Res.map], ?_, hh⟩
    rw [← List.map_flatten] at hr
    exact hr
  | listDataN ps n =>
    simp only [specStep] at hs
    split at hs
    · rename_i hc
      cases hs
      have hfl : (ps.map (·.map (·.map some))).flatten = ps.flatten.map (·.map (some : UInt8 → B)) := by
        rw [List.map_flatten]
      obtain ⟨c', e, hh, hr⟩ := listDataN_rel (ps.map (·.map (·.map some))) n h
        (by simpa using hc.1) (by rw [hfl, List.length_map]; exact hc.2)
      refine ⟨(c', ms), by simp only [step, e, Res.map], ?_, hh⟩
      rw [hfl, ← List.map_take, ← List.map_flatten] at hr
      exact hr
    · exact nomatch hs
  | reserve n =>
    cases hs
    obtain ⟨o, c', e, _, hh, hr, hm, _⟩ := reserve_rel n h
    refine ⟨(c', ms ++ [o]), by simp only [step, e, Res.map], ?_, hh⟩
    exact ⟨hr.bytes, hr.size, hr.used, hr.stack, hr.marks.concat hm, hr.hdr⟩
  | mark k bs =>
    simp only [specStep] at hs
    split at hs
    · rename_i p hk
      split at hs
      · rename_i hp
        cases hs
        obtain ⟨o, ho, hmr⟩ := h.marks.get hk
        cases o with
        | none => exact absurd hmr (by simp [MarkRel])
        | some m =>
          obtain ⟨m', c', e, _, hh, hat, _, hr⟩ := markerWrite_rel (bs.map some) h hmr
            (by simpa using hp)
          dsimp only at ho
          refine ⟨(c', ms.set k (some m')), ?_, ?_, hh⟩
          · simp only [step, ho, e, Res.map]
          · refine ⟨hr.bytes, hr.size, hr.used, hr.stack, hr.marks.set ?_, hr.hdr⟩
            simpa [MarkRel] using hat
      · exact nomatch hs
    · exact nomatch hs
  | blockOpen id =>
    obtain ⟨c', e, hr, hh⟩ := blockOpen_rel id h hs
    exact ⟨(c', ms), by simp only [step, e, Res.map], hr, hh⟩
  | setHeader flags =>
    cases hs
    obtain ⟨h1, h2⟩ := setHeader_rel flags h
    exact ⟨_, rfl, h1, h2⟩
  | blockClose =>
    obtain ⟨c', e, hr, hh⟩ := blockClose_rel h hs hfit
    exact ⟨(c', ms), by simp only [step, e, Res.map], hr, hh⟩
  | block id hsize bs =>
    cases hs
    obtain ⟨h1, h2⟩ := setHeader_rel flagContainer h
    obtain ⟨c1, e1, _, hh1, hr1⟩ := write_rel ((encHdr id (blockHdr + (bs.map some : List B).length)
      hsize).map some) h1
    obtain ⟨c2, e2, _, hh2, hr2⟩ := write_rel (bs.map some) hr1
    refine ⟨(c2, ms), ?_, ?_, hh2.trans (hh1.trans h2)⟩
    · simp only [step, writeBlock, e1, e2, Res.map]
    · simp only [List.append_assoc, ← List.map_append, encHdr, List.length_map] at hr2
      simp only [Flat.add, List.append_assoc]
      exact hr2

theorem step_err {w : World} {f : Flat} {op : Op} (h : Rel w f) (hs : specStep f op = .err) :
    step w op = .err := by
  obtain ⟨c, ms⟩ := w
  cases op with
  | blockOpen id =>
    simp only [specStep] at hs
    split at hs
    · rename_i hd
      have hlen := h.stack.length
      dsimp only at hlen
      simp only [step, blockOpen]
      rw [if_pos (by unfold maxDepth; omega)]
      rfl
    · exact nomatch hs
  | appendChainN ch o n =>
    simp only [specStep] at hs
    split at hs
    · exact nomatch hs
    · split at hs <;> exact nomatch hs
  | listDataN ps n =>
    simp only [specStep] at hs
    split at hs <;> exact nomatch hs
  | mark k bs =>
    simp only [specStep] at hs
    split at hs
    · split at hs <;> exact nomatch hs
    · exact nomatch hs
  | blockClose =>
    simp only [specStep] at hs
    split at hs <;> exact nomatch hs
  | _ => exact nomatch hs

theorem init_rel (type created : Nat) : Rel (init type created, []) (specInit type created) ∧
    (init type created).header = (type != 0) ∧ Fit (specInit type created) := by
  unfold init specInit
  by_cases ht : type = 0
  · subst ht
    exact ⟨⟨rfl, rfl, (fun h => nomatch h), .nil, .nil, (fun h => nomatch h)⟩, rfl,
      (fun _ h => nomatch h)⟩
  · simp only [if_neg ht]
    refine ⟨⟨?_, ?_, (fun _ h => nomatch h), .nil, .nil, fun _ => ⟨by simp, by simp [le32], by simp⟩⟩,
      by simp [ht], (fun _ h => nomatch h)⟩
    · simp only [List.flatten_cons, List.flatten_nil, List.append_nil]; rfl
    · simp [fileHdr, le32]

theorem run_rel (ops : List Op) : ∀ {w : World} {f : Flat}, Rel w f → Fit f →
    match specRun f ops with
    | .ok f' => ∃ w', run w ops = .ok w' ∧ Rel w' f' ∧ w'.1.header = w.1.header ∧ Fit f'
    | .err => run w ops = .err
    | .ub => True := by
  induction ops with
  | nil => intro w f h hf; exact ⟨w, rfl, h, rfl, hf⟩
  | cons op ops ih =>
    intro w f h hf
    simp only [specRun]
    cases hs : specStep f op with
    | ok f' =>
      obtain ⟨w', e, hr, hh⟩ := step_rel h hf hs
      have := ih hr (fit_step hf hs)
      dsimp only
      cases hsr : specRun f' ops with
      | ok f2 =>
        rw [hsr] at this
        obtain ⟨w2, e2, hr2, hh2, hf2⟩ := this
        exact ⟨w2, by simp only [run, e, e2], hr2, hh2.trans hh, hf2⟩
      | err =>
        rw [hsr] at this
        simp only [run, e]
        exact this
      | ub => trivial
    | err =>
      simp only [run, step_err h hs]
    | ub => trivial

theorem close_rel {w : World} {f : Flat} {type : Nat} (h : Rel w f) (hs : f.stack = [])
    (hh : w.1.header = (type != 0)) (hne : w.1.out ≠ []) :
    ∃ out, close w.1 = .ok (out, f.bytes.length) ∧ out.flatten = specClose type f.bytes := by
  obtain ⟨c, ms⟩ := w
  obtain ⟨h1, h2, h3, h4, h5, h6⟩ := h
  simp only at *
  rw [hs] at h4
  have hb : c.blocks.length = 0 := h4.length
  unfold close specClose
  rw [if_neg (by omega)]
  cases ho : c.out with
  | nil => exact absurd ho hne
  | cons b rest =>
    dsimp only
    by_cases ht : type = 0
    · subst ht
      have hh' : c.header = false := hh
      rw [hh', if_pos rfl]
      exact ⟨_, by rw [h2], by rw [← ho, h1]⟩
    · have hh' : c.header = true := by rw [hh]; simp [ht]
      rw [hh', if_neg ht]
      have h8 : 8 ≤ b.length := by
        have := (h6 hh').off
        rw [ho] at this
        simpa using this
      refine ⟨_, by rw [h2], ?_⟩
      rw [← h1, ho]
      have hl : ∀ n, ((le32 n).map (some : UInt8 → B)).length = 4 := by intro n; simp [le32]
      simp only [overwrite, patch, List.flatten_cons, hl]
      rw [List.take_append_of_le_length (by omega), List.drop_append_of_le_length (by omega)]
      simp only [List.append_assoc]

/-- C12: after any history of calls within the contract, the chain produced holds exactly the bytes
the specification describes: the data in the order written, every reserved hole filled with what was
written through its marker, and the size of the file in the file header. Nesting too deep is refused
as in the specification. -/
theorem output_exact (type created : Nat) (ops : List Op) :
    match specRun (specInit type created) ops with
    | .ok f => ∃ w, run (init type created, []) ops = .ok w ∧
        (f.stack = [] → f.bytes ≠ [] →
          ∃ out, close w.1 = .ok (out, f.bytes.length) ∧ out.flatten = specClose type f.bytes) ∧
        (f.stack ≠ [] → close w.1 = .err)
    | .err => run (init type created, []) ops = .err
    | .ub => True := by
  obtain ⟨h1, h2, h3⟩ := init_rel type created
  have := run_rel ops h1 h3
  split
  · rename_i f hf
    rw [hf] at this
    obtain ⟨w, e, hr, hh, _⟩ := this
    refine ⟨w, e, ?_, ?_⟩
    · intro hs hne
      refine close_rel hr hs (hh.trans h2) ?_
      intro h0
      apply hne
      rw [← hr.bytes, h0, List.flatten_nil]
    · intro hs
      unfold close
      have := hr.stack.length
      rw [if_pos]
      intro h0
      rw [h0] at this
      exact hs (List.length_eq_zero_iff.1 this.symm)
  · rename_i hf
    rw [hf] at this
    exact this
  · trivial

/-- C12: no byte written through `write`, `append`, ... is lost, whatever the sizes: the plain case
without markers. -/
theorem writes_concat (type created : Nat) (chunks : List (Bool × List UInt8)) :
    ∃ w, run (init type created, [])
        (chunks.map fun c => if c.1 then Op.append c.2 else Op.write c.2) = .ok w ∧
      w.1.out.flatten = (specInit type created).bytes ++ (chunks.map (·.2)).flatten.map some := by
  obtain ⟨h1, h2, h3⟩ := init_rel type created
  have key : ∀ (chunks : List (Bool × List UInt8)) (f : Flat),
      ∃ f', specRun f (chunks.map fun c => if c.1 then Op.append c.2 else Op.write c.2) = .ok f' ∧
        f'.bytes = f.bytes ++ (chunks.map (·.2)).flatten.map some := by
    intro chunks
    induction chunks with
    | nil => intro f; exact ⟨f, rfl, by simp⟩
    | cons c rest ih =>
      intro f
      obtain ⟨f', e, hb⟩ := ih (f.add c.2)
      refine ⟨f', ?_, ?_⟩
      · obtain ⟨b, x⟩ := c
        cases b <;> simpa [specRun, specStep] using e
      · rw [hb]; simp [Flat.add]
  obtain ⟨f', e, hb⟩ := key chunks (specInit type created)
  have := run_rel (chunks.map fun c => if c.1 then Op.append c.2 else Op.write c.2) h1 h3
  rw [e] at this
  obtain ⟨w, e2, hr, _⟩ := this
  exact ⟨w, e2, by rw [hr.bytes, hb]⟩

/-- C12: chaining another output (whose blocks are closed) appends its bytes; the markers and open
blocks of the first writer keep their meaning. -/
theorem chain_exact {w1 w2 : World} {f1 f2 : Flat} {t2 : Nat} (h1 : Rel w1 f1) (h2 : Rel w2 f2)
    (hs : f2.stack = []) (hh : w2.1.header = (t2 != 0)) (hne : w2.1.out ≠ []) :
    ∃ c, chain w1.1 w2.1 = .ok c ∧
      Rel (c, w1.2) { f1 with bytes := f1.bytes ++ specClose t2 f2.bytes } := by
  obtain ⟨out, e, ho⟩ := close_rel h2 hs hh hne
  unfold chain
  rw [e]
  dsimp only
  have hlen : (specClose t2 f2.bytes).length = f2.bytes.length := by
    unfold specClose
    split
    · rfl
    · rename_i ht
      rw [patch_length]
      have hhd := h2.hdr (by rw [hh]; simp [ht])
      have h8 := hhd.off
      have hb := h2.bytes
      obtain ⟨b, rest, hbr⟩ : ∃ b rest, w2.1.out = b :: rest := by
        cases hx : w2.1.out with
        | nil => exact absurd hx hne
        | cons b rest => exact ⟨b, rest, rfl⟩
      rw [hbr] at h8 hb
      rw [← hb]
      simp only [List.getD_cons_zero] at h8
      simp only [List.length_map, le32, List.length_cons, List.length_nil, List.flatten_cons,
        List.length_append]
      omega
  by_cases hz : f2.bytes.length ≤ 0
  · rw [if_pos hz]
    refine ⟨w1.1, rfl, ?_⟩
    have : specClose t2 f2.bytes = [] := List.length_eq_zero_iff.1 (by omega)
    rw [this]
    simpa using h1
  · rw [if_neg hz]
    refine ⟨_, rfl, ?_⟩
    have hout : (if w1.1.used = true then flushBuf w1.1 else w1.1).out = w1.1.out ∧
        (if w1.1.used = true then flushBuf w1.1 else w1.1).size = w1.1.size ∧
        (if w1.1.used = true then flushBuf w1.1 else w1.1).blocks = w1.1.blocks ∧
        (if w1.1.used = true then flushBuf w1.1 else w1.1).header = w1.1.header ∧
        (if w1.1.used = true then flushBuf w1.1 else w1.1).used = false := by
      cases hu : w1.1.used <;> simp [flushBuf, hu]
    generalize (if w1.1.used = true then flushBuf w1.1 else w1.1) = c1 at hout
    obtain ⟨g1, g2, g3, g4, g5⟩ := hout
    refine rel_extend (c := w1.1) h1 ?_ ?_ ?_ g3 g4 ?_
    · simp only [g1, List.flatten_append, ho]
    · simp only [g1]; exact grow_append _ _
    · simp only [g2, hlen]
    · simp only [g5]; exact fun h => nomatch h

/-- Chaining an output that is still empty is reported as an error, though the code has a branch for
size zero (ngx_persist_write.c:697-704): `ngx_persist_write_close` returns NULL for it. -/
theorem chain_empty_refused (c : Ctx) : chain c (init 0 0) = .err := rfl

/-- A history with a block, a hole filled in two steps and a file header: what it produces. -/
example : ∃ f, specRun (specInit 7 5) [.blockOpen 1, .reserve 3,
      .write [4], .mark 0 [5, 6], .mark 0 [7], .blockClose] = .ok f ∧ f.stack = [] ∧
      f.bytes.drop 32 =
        ((le32 1 ++ le32 16 ++ le32 12 ++ [5, 6, 7, 4] : List UInt8).map some) :=
  ⟨_, rfl, rfl, by decide⟩

end Verif.Persist
