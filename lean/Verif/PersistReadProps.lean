import Verif.PersistRead
import Verif.RstreamProps
import Verif.PersistWriteProps

/-!
# Properties C11 and C13: persisted blocks are read back as written, and the reader is safe
-/

namespace Verif.Persist

open Verif.Rstream

/-! ## Specification -/

/-- A block as the user sees it: identifier, header size field and content. -/
structure Block where
  id      : Nat
  hsize   : Nat
  payload : List UInt8

/-- The fields fit in 32 bits. -/
def Block.ok (b : Block) : Prop := b.id < 2 ^ 32 ∧ b.hsize < 2 ^ 32 ∧ 12 + b.payload.length < 2 ^ 32

/-- The bytes of a block. -/
def Block.bytes (b : Block) : List UInt8 :=
  le32 b.id ++ (le32 (12 + b.payload.length) ++ (le32 b.hsize ++ b.payload))

/-- `Parse bytes blocks good`: `bytes` are the blocks `blocks`, and nothing more if `good`;
otherwise what follows does not start with a block (size too small or not contained). -/
inductive Parse : List UInt8 → List Block → Bool → Prop
  | done : Parse [] [] true
  | bad {l : List UInt8} : l ≠ [] → (∀ (b : Block) (rest : List UInt8), b.ok → l ≠ b.bytes ++ rest) → Parse l [] false
  | block {b : Block} {rest : List UInt8} {bs : List Block} {good : Bool} :
      b.ok → Parse rest bs good → Parse (b.bytes ++ rest) (b :: bs) good

/-- Handlers as functions of the content of the block. -/
abbrev Meaning (S : Type) := Nat → Option (Nat → List UInt8 → S → Res (Bool × S))

/-- The known blocks are handled in order until one fails; at the end the result is `good`. -/
def handleAll {S : Type} (g : Meaning S) (good : Bool) : List Block → S → Res (Bool × S)
  | [], s => .ok (good, s)
  | b :: bs, s => match g b.id with
    | none => handleAll g good bs s
    | some f => match f b.hsize b.payload s with
      | .ok (true, s1) => handleAll g good bs s1
      | .ok (false, s1) => .ok (false, s1)
      | .err => .err
      | .ub => .ub

/-! ## Little endian numbers -/

theorem le32_length (n : Nat) : (le32 n).length = 4 := rfl

theorem ofLe32_le32 {n : Nat} (h : n < 2 ^ 32) : ofLe32 (le32 n) = .ok n := by
  obtain ⟨a, b, c, d, e, hn⟩ := num32_le32 n h
  rw [e, ofLe32_num32, hn]

theorem le32_inj {a b : Nat} (ha : a < 2 ^ 32) (hb : b < 2 ^ 32) (h : le32 a = le32 b) : a = b := by
  have := ofLe32_le32 ha
  rw [h, ofLe32_le32 hb] at this
  injection this with this
  exact this.symm

theorem num32_lt (a b c d : UInt8) : num32 a b c d < 2 ^ 32 := by
  have := a.toNat_lt; have := b.toNat_lt; have := c.toNat_lt; have := d.toNat_lt
  unfold num32
  omega

theorem le32_num32 (a b c d : UInt8) : le32 (num32 a b c d) = [a, b, c, d] := by
  have h1 := a.toNat_lt; have h2 := b.toNat_lt; have h3 := c.toNat_lt; have h4 := d.toNat_lt
  have e1 : num32 a b c d % 256 = a.toNat := by unfold num32; omega
  have e2 : num32 a b c d / 256 % 256 = b.toNat := by unfold num32; omega
  have e3 : num32 a b c d / 65536 % 256 = c.toNat := by unfold num32; omega
  have e4 : num32 a b c d / 16777216 % 256 = d.toNat := by unfold num32; omega
  unfold le32
  rw [e1, e2, e3, e4]
  simp

theorem split32 {l : List UInt8} (h : 4 ≤ l.length) : ∃ n r, n < 2 ^ 32 ∧ l = le32 n ++ r := by
  obtain ⟨a, b, c, d, r, e⟩ := four h
  exact ⟨num32 a b c d, r, num32_lt a b c d, by rw [le32_num32, e]; rfl⟩

theorem load_at (pre x post : List UInt8) : load (pre ++ (x ++ post)) pre.length x.length = .ok x := by
  unfold load
  rw [if_pos (by simp)]
  simp

theorem load32_at (pre post : List UInt8) {n : Nat} (h : n < 2 ^ 32) :
    load32 (pre ++ (le32 n ++ post)) pre.length = .ok n := by
  unfold load32
  have := load_at pre (le32 n) post
  rw [le32_length] at this
  rw [this]
  exact ofLe32_le32 h

theorem load32_at' {m pre post : List UInt8} {n p : Nat} (h : n < 2 ^ 32)
    (hm : m = pre ++ (le32 n ++ post)) (hp : p = pre.length) : load32 m p = .ok n := by
  subst hm hp
  exact load32_at pre post h

/-! ## Blocks -/

theorem Block.bytes_length (b : Block) : b.bytes.length = 12 + b.payload.length := by
  unfold Block.bytes
  simp only [List.length_append, le32_length]
  omega

theorem Block.inj {b c : Block} {r s : List UInt8} (hb : b.ok) (hc : c.ok)
    (h : b.bytes ++ r = c.bytes ++ s) : b = c ∧ r = s := by
  unfold Block.bytes at h
  simp only [List.append_assoc] at h
  obtain ⟨h1, h⟩ := List.append_inj h (by simp [le32_length])
  obtain ⟨h2, h⟩ := List.append_inj h (by simp [le32_length])
  obtain ⟨h3, h⟩ := List.append_inj h (by simp [le32_length])
  have h2 := le32_inj hb.2.2 hc.2.2 h2
  obtain ⟨h4, h⟩ := List.append_inj h (by omega)
  have h1 := le32_inj hb.1 hc.1 h1
  have h3 := le32_inj hb.2.1 hc.2.1 h3
  obtain ⟨i, s, p⟩ := b
  obtain ⟨j, t, q⟩ := c
  simp only at *
  exact ⟨by rw [h1, h3, h4], by assumption⟩

theorem Block.bytes_ne (b : Block) (r : List UInt8) : b.bytes ++ r ≠ [] := by
  intro h
  have := congrArg List.length h
  rw [List.length_append, Block.bytes_length] at this
  simp at this

/-- A byte string has one reading only. -/
theorem Parse.unique {l : List UInt8} {bs cs : List Block} {g g' : Bool} (h1 : Parse l bs g)
    (h2 : Parse l cs g') : bs = cs ∧ g = g' := by
  induction h1 generalizing cs g' with
  | done =>
    generalize hl : ([] : List UInt8) = l at h2
    cases h2 with
    | done => exact ⟨rfl, rfl⟩
    | bad h => exact absurd hl.symm h
    | block _ _ => exact absurd hl.symm (Block.bytes_ne _ _)
  | bad hne hno =>
    cases h2 with
    | done => exact absurd rfl hne
    | bad _ _ => exact ⟨rfl, rfl⟩
    | block hb _ => exact absurd rfl (hno _ _ hb)
  | @block b rest bs good hb hp ih =>
    generalize hl : b.bytes ++ rest = l at h2
    cases h2 with
    | done => exact absurd hl (Block.bytes_ne _ _)
    | bad _ hno => exact absurd hl.symm (hno _ _ hb)
    | @block c rest' cs good' hc hq =>
      obtain ⟨e1, e2⟩ := Block.inj hb hc hl
      subst e1 e2
      obtain ⟨e3, e4⟩ := ih hq
      exact ⟨by rw [e3], e4⟩

/-- The bytes of a stream inside the input. -/
theorem bytes_in {m : List UInt8} {rs : Rs} (h : Valid m rs) :
    m = m.take rs.pos ++ (bytes m rs ++ m.drop rs.fin) ∧ (m.take rs.pos).length = rs.pos := by
  have h1 := h.le
  have h2 := h.fin
  refine ⟨?_, by simp; omega⟩
  unfold bytes
  rw [← List.append_assoc]
  have : m.take rs.pos = (m.take rs.fin).take rs.pos := by
    rw [List.take_take, Nat.min_eq_left h1]
  rw [this, List.take_append_drop, List.take_append_drop]

/-- Where block `b` lies in the input. -/
def Holds (m : List UInt8) (p : Nat) (b : Block) : Prop :=
  ∃ pre post, m = pre ++ (b.bytes ++ post) ∧ pre.length = p

/-- The stream of the content of a block at `p`. -/
def Block.rs (b : Block) (p : Nat) : Rs := { pos := p + 12, fin := p + 12 + b.payload.length }

theorem Holds.valid {m : List UInt8} {p : Nat} {b : Block} (h : Holds m p b) (hm : m.length < 2 ^ 64) :
    Valid m (b.rs p) := by
  obtain ⟨pre, post, e, hp⟩ := h
  refine ⟨by simp [Block.rs], ?_, hm⟩
  rw [e]
  simp only [Block.rs, List.length_append, Block.bytes_length]
  omega

theorem Holds.bytes {m : List UInt8} {p : Nat} {b : Block} (h : Holds m p b) :
    Rstream.bytes m (b.rs p) = b.payload := by
  obtain ⟨pre, post, e, hp⟩ := h
  have hl : (pre ++ (le32 b.id ++ (le32 (12 + b.payload.length) ++ le32 b.hsize))).length = p + 12 := by
    simp only [List.length_append, le32_length]; omega
  have e' : m = (pre ++ (le32 b.id ++ (le32 (12 + b.payload.length) ++ le32 b.hsize))) ++
      (b.payload ++ post) := by
    rw [e]; simp [Block.bytes]
  rw [e']
  unfold Rstream.bytes Block.rs
  dsimp only
  rw [← List.append_assoc, List.take_append_of_le_length (by rw [List.length_append]; omega),
    List.take_of_length_le (by rw [List.length_append]; omega), ← hl, List.drop_left]

theorem Holds.id {m : List UInt8} {p : Nat} {b : Block} (h : Holds m p b) (hb : b.ok) :
    load32 m p = .ok b.id := by
  obtain ⟨pre, post, e, hp⟩ := h
  refine load32_at' hb.1 (pre := pre) (post := ?_) ?_ hp.symm
  · exact le32 (12 + b.payload.length) ++ (le32 b.hsize ++ b.payload) ++ post
  · rw [e]; simp [Block.bytes]

theorem Holds.size {m : List UInt8} {p : Nat} {b : Block} (h : Holds m p b) (hb : b.ok) :
    load32 m (p + 4) = .ok (12 + b.payload.length) := by
  obtain ⟨pre, post, e, hp⟩ := h
  refine load32_at' hb.2.2 (pre := pre ++ le32 b.id) (post := ?_) ?_ ?_
  · exact le32 b.hsize ++ b.payload ++ post
  · rw [e]; simp [Block.bytes]
  · rw [List.length_append, le32_length, hp]

theorem Holds.hsize {m : List UInt8} {p : Nat} {b : Block} (h : Holds m p b) (hb : b.ok) :
    load32 m (p + 8) = .ok b.hsize := by
  obtain ⟨pre, post, e, hp⟩ := h
  refine load32_at' hb.2.1 (pre := pre ++ (le32 b.id ++ le32 (12 + b.payload.length))) (post := ?_)
    ?_ ?_
  · exact b.payload ++ post
  · rw [e]; simp [Block.bytes]
  · simp only [List.length_append, le32_length, hp]

theorem readBlock_spec {m : List UInt8} {rs : Rs} (h : Valid m rs) :
    (∃ (b : Block) (rest : List UInt8) (rs' : Rs), b.ok ∧ bytes m rs = b.bytes ++ rest ∧ Holds m rs.pos b ∧
        readBlock m rs = .ok (some (rs.pos, b.rs rs.pos), rs') ∧ Valid m rs' ∧ bytes m rs' = rest) ∨
    (∃ rs', readBlock m rs = .ok (none, rs') ∧ 
      ∀ (b : Block) (rest : List UInt8), b.ok → bytes m rs ≠ b.bytes ++ rest) := by
  have hlen := bytes_length h
  rcases getPtr_spec h blockHdr with ⟨hl, e, _, hv⟩ | ⟨hl, e⟩
  · have h12 : 12 ≤ (bytes m rs).length := hl
    obtain ⟨id, r1, hid, e1⟩ := split32 (show 4 ≤ (bytes m rs).length by omega)
    have l1 := congrArg List.length e1
    rw [List.length_append, le32_length] at l1
    obtain ⟨size, r2, hsize, e2⟩ := split32 (show 4 ≤ r1.length by omega)
    have l2 := congrArg List.length e2
    rw [List.length_append, le32_length] at l2
    obtain ⟨hs, r3, hhs, e3⟩ := split32 (show 4 ≤ r2.length by omega)
    have l3 := congrArg List.length e3
    rw [List.length_append, le32_length] at l3
    subst e3 e2
    obtain ⟨hm, hpl⟩ := bytes_in h
    have hls : load32 m (rs.pos + 4) = .ok size := by
      refine load32_at' hsize (pre := m.take rs.pos ++ le32 id)
        (post := le32 hs ++ r3 ++ m.drop rs.fin) ?_ ?_
      · rw [List.append_assoc]
        conv => lhs; rw [hm, e1]
        simp
      · rw [List.length_append, le32_length, hpl]
    have hb12 : bytes m { rs with pos := rs.pos + 12 } = r3 := by
      rw [bytes_drop, e1]
      have : le32 id ++ (le32 size ++ (le32 hs ++ r3)) = (le32 id ++ le32 size ++ le32 hs) ++ r3 := by
        simp
      rw [this]
      exact List.drop_left' (by simp [le32_length])
    unfold readBlock
    rw [e]
    dsimp only
    rw [hls]
    simp only [Res.bind]
    by_cases hsm : size < blockHdr
    · rw [if_pos hsm]
      refine .inr ⟨_, rfl, ?_⟩
      intro b rest hb hcon
      rw [e1] at hcon
      unfold Block.bytes at hcon
      simp only [List.append_assoc] at hcon
      obtain ⟨_, hcon⟩ := List.append_inj hcon (by simp [le32_length])
      obtain ⟨hcon, _⟩ := List.append_inj hcon (by simp [le32_length])
      have := le32_inj hsize hb.2.2 hcon
      have : (blockHdr : Nat) = 12 := rfl
      omega
    · rw [if_neg hsm]
      have hbh : (blockHdr : Nat) = 12 := rfl
      rw [hbh] at hsm hv ⊢
      unfold getStream
      rcases getPtr_spec hv (size - 12) with ⟨hl2, e2, _, hv2⟩ | ⟨hl2, e2⟩
      · rw [hb12] at hl2
        rw [e2]
        have hpl : (r3.take (size - 12)).length = size - 12 := by
          rw [List.length_take]; omega
        refine .inl ⟨{ id, hsize := hs, payload := r3.take (size - 12) }, r3.drop (size - 12),
          { rs with pos := rs.pos + 12 + (size - 12) }, ⟨hid, hhs, ?_⟩, ?_, ?_, ?_, hv2, ?_⟩
        · dsimp only; rw [hpl]; omega
        · rw [e1]
          simp only [Block.bytes, hpl, List.append_assoc, List.take_append_drop]
          rw [show 12 + (size - 12) = size by omega]
        · refine ⟨m.take rs.pos, r3.drop (size - 12) ++ m.drop rs.fin, ?_, by assumption⟩
          conv => lhs; rw [hm, e1]
          simp only [Block.bytes, hpl, List.append_assoc]
          rw [show 12 + (size - 12) = size by omega, ← List.append_assoc (r3.take (size - 12)),
            List.take_append_drop]
        · simp only [Block.rs, hpl]
        · have := bytes_drop (m := m) (rs := { rs with pos := rs.pos + 12 }) (n := size - 12)
          dsimp only at this
          rw [this, hb12]
      · rw [hb12] at hl2
        rw [e2]
        refine .inr ⟨_, rfl, ?_⟩
        intro b rest hb hcon
        rw [e1] at hcon
        unfold Block.bytes at hcon
        simp only [List.append_assoc] at hcon
        obtain ⟨_, hcon⟩ := List.append_inj hcon (by simp [le32_length])
        obtain ⟨hcon1, hcon⟩ := List.append_inj hcon (by simp [le32_length])
        have := le32_inj hsize hb.2.2 hcon1
        obtain ⟨_, hcon⟩ := List.append_inj hcon (by simp [le32_length])
        have := congrArg List.length hcon
        rw [List.length_append] at this
        omega
  · unfold readBlock
    rw [e]
    refine .inr ⟨_, rfl, ?_⟩
    intro b rest hb hcon
    have := congrArg List.length hcon
    rw [List.length_append, Block.bytes_length] at this
    have : (blockHdr : Nat) = 12 := rfl
    omega

/-! ## The reader loop -/

theorem parse_exists (l : List UInt8) : ∃ bs good, Parse l bs good := by
  generalize hn : l.length = n
  induction n using Nat.strongRecOn generalizing l with
  | _ n ih =>
    by_cases h0 : l = []
    · subst h0; exact ⟨_, _, .done⟩
    · by_cases h : ∃ (b : Block) (rest : List UInt8), b.ok ∧ l = b.bytes ++ rest
      · obtain ⟨b, rest, hb, e⟩ := h
        subst e
        have : rest.length < n := by
          rw [List.length_append, Block.bytes_length] at hn; omega
        obtain ⟨bs, good, hp⟩ := ih rest.length this rest rfl
        exact ⟨_, _, .block hb hp⟩
      · refine ⟨_, _, .bad h0 ?_⟩
        intro b rest hb e
        exact h ⟨b, rest, hb, e⟩

/-- The handlers `h` have the meaning `g`: on a block of the input what they do depends on the
content of the block only. -/
def Agrees {S : Type} (m : List UInt8) (h : Handler S) (g : Meaning S) : Prop :=
  ∀ id, match h id, g id with
    | none, none => True
    | some f, some f' => ∀ (p : Nat) (b : Block) (s : S), b.id = id → b.ok → Holds m p b →
        f p (b.rs p) s = f' b.hsize b.payload s
    | _, _ => False

theorem eof_iff {m : List UInt8} {rs : Rs} (h : Valid m rs) : eof rs = true ↔ bytes m rs = [] := by
  unfold eof
  rw [← List.length_eq_zero_iff, bytes_length h]
  have := h.le
  simp only [decide_eq_true_eq]
  omega

theorem readBlocks_nil {S : Type} {h : Handler S} {m : List UInt8} {rs : Rs} (hv : Valid m rs)
    (hb : bytes m rs = []) (fuel : Nat) (s : S) : readBlocks h m (fuel + 1) rs s = .ok (true, s) := by
  unfold readBlocks
  rw [if_pos ((eof_iff hv).2 hb)]

theorem readBlocks_bad {S : Type} {h : Handler S} {m : List UInt8} {rs : Rs} (hv : Valid m rs)
    (hb : bytes m rs ≠ [])
    (hn : ∀ (b : Block) (rest : List UInt8), b.ok → bytes m rs ≠ b.bytes ++ rest) (fuel : Nat) (s : S) :
    readBlocks h m (fuel + 1) rs s = .ok (false, s) := by
  unfold readBlocks
  rw [if_neg (fun h => hb ((eof_iff hv).1 h))]
  rcases readBlock_spec hv with ⟨b, rest, _, hok, e, _⟩ | ⟨rs', e, _⟩
  · exact absurd e (hn b rest hok)
  · rw [e]

theorem readBlocks_block {S : Type} {h : Handler S} {m : List UInt8} {rs : Rs} (hv : Valid m rs)
    {b : Block} {rest : List UInt8} (hok : b.ok) (hb : bytes m rs = b.bytes ++ rest) (fuel : Nat) (s : S) :
    ∃ rs', Valid m rs' ∧ bytes m rs' = rest ∧ Holds m rs.pos b ∧
      readBlocks h m (fuel + 1) rs s =
        match h b.id with
        | none => readBlocks h m fuel rs' s
        | some f => match f rs.pos (b.rs rs.pos) s with
          | .ok (true, s1) => readBlocks h m fuel rs' s1
          | .ok (false, s1) => .ok (false, s1)
          | .err => .err
          | .ub => .ub := by
  rcases readBlock_spec hv with ⟨c, rest', rs', hok', e, hh, er, hv', hb'⟩ | ⟨_, _, hn⟩
  · obtain ⟨e1, e2⟩ := Block.inj hok hok' (hb.symm.trans e)
    subst e1 e2
    refine ⟨rs', hv', hb', hh, ?_⟩
    conv => lhs; unfold readBlocks
    rw [if_neg (fun h => Block.bytes_ne b rest (hb.symm.trans ((eof_iff hv).1 h))), er]
    dsimp only
    rw [hh.id hok]
    rfl
  · exact absurd hb (hn b rest hok)

/-- C13: on any bytes the reader visits exactly the blocks the bytes consist of, in order; each known
block is handed to its handler with exactly its own content, unknown ones are skipped; bytes that are
not a block are reported. No byte outside is touched (that would be `ub`) and it terminates. -/
theorem readBlocks_exact {S : Type} {m : List UInt8} {h : Handler S} {g : Meaning S} (ha : Agrees m h g)
    {rs : Rs} (hv : Valid m rs) {bs : List Block} {good : Bool} (hp : Parse (bytes m rs) bs good)
    {fuel : Nat} (hf : (bytes m rs).length < fuel) (s : S) :
    readBlocks h m fuel rs s = handleAll g good bs s := by
  generalize hl : bytes m rs = l at hp hf
  induction hp generalizing rs fuel s with
  | done =>
    obtain ⟨k, rfl⟩ : ∃ k, fuel = k + 1 := ⟨fuel - 1, by simp at hf; omega⟩
    exact readBlocks_nil hv hl k s
  | bad hne hno =>
    obtain ⟨k, rfl⟩ : ∃ k, fuel = k + 1 := ⟨fuel - 1, by omega⟩
    exact readBlocks_bad hv (by rw [hl]; exact hne) (by rw [hl]; exact hno) k s
  | @block b rest bs good hb hp ih =>
    obtain ⟨k, rfl⟩ : ∃ k, fuel = k + 1 := ⟨fuel - 1, by omega⟩
    obtain ⟨rs', hv', hb', hh, e⟩ := readBlocks_block (h := h) hv hb hl k s
    have hk : rest.length < k := by
      rw [List.length_append, Block.bytes_length] at hf; omega
    rw [e]
    unfold handleAll
    have := ha b.id
    split at this
    · rename_i e1 e2
      rw [e1, e2]
      exact ih hv' s hb' hk
    · rename_i f f' e1 e2
      rw [e1, e2]
      dsimp only
      rw [this rs.pos b s rfl hb hh]
      split
      · exact ih hv' _ hb' hk
      all_goals rfl
    · exact absurd this (by simp)

/-- C13: blocks whose identifier is not known have no effect. -/
theorem unknown_skipped {S : Type} (g : Meaning S) (good : Bool) (bs : List Block) (s : S) :
    handleAll g good bs s = handleAll g good (bs.filter fun b => (g b.id).isSome) s := by
  induction bs generalizing s with
  | nil => rfl
  | cons b bs ih =>
    rw [List.filter_cons]
    cases hg : g b.id with
    | none =>
      simp only [handleAll, hg, Option.isSome_none, Bool.false_eq_true, if_false]
      exact ih s
    | some f =>
      simp only [handleAll, hg, Option.isSome_some, if_true]
      split
      · exact ih _
      all_goals rfl

/-- C13: with handlers that do not fail on any block, reading any bytes does not misbehave. -/
theorem readBlocks_safe {S : Type} {m : List UInt8} {h : Handler S} {L : Nat}
    (hh : ∀ id f, h id = some f → ∀ (p : Nat) (b : Block) (s : S), b.id = id → b.ok → Holds m p b →
      12 + b.payload.length ≤ L → ∃ r, f p (b.rs p) s = .ok r)
    {rs : Rs} (hv : Valid m rs) (hL : (bytes m rs).length ≤ L) {fuel : Nat}
    (hf : (bytes m rs).length < fuel) (s : S) :
    ∃ r, readBlocks h m fuel rs s = .ok r := by
  obtain ⟨bs, good, hp⟩ := parse_exists (bytes m rs)
  generalize hl : bytes m rs = l at hp hf hL
  induction hp generalizing rs fuel s with
  | done =>
    obtain ⟨k, rfl⟩ : ∃ k, fuel = k + 1 := ⟨fuel - 1, by simp at hf; omega⟩
    exact ⟨_, readBlocks_nil hv hl k s⟩
  | bad hne hno =>
    obtain ⟨k, rfl⟩ : ∃ k, fuel = k + 1 := ⟨fuel - 1, by omega⟩
    exact ⟨_, readBlocks_bad hv (by rw [hl]; exact hne) (by rw [hl]; exact hno) k s⟩
  | @block b rest bs good hb hp ih =>
    obtain ⟨k, rfl⟩ : ∃ k, fuel = k + 1 := ⟨fuel - 1, by omega⟩
    obtain ⟨rs', hv', hb', hho, e⟩ := readBlocks_block (h := h) hv hb hl k s
    have hk : rest.length < k := by
      rw [List.length_append, Block.bytes_length] at hf; omega
    rw [List.length_append, Block.bytes_length] at hL
    rw [e]
    cases hid : h b.id with
    | none => exact ih hv' s hb' hk (by omega)
    | some f =>
      obtain ⟨⟨rc, s1⟩, er⟩ := hh b.id f hid rs.pos b s rfl hb hho (by omega)
      dsimp only
      rw [er]
      cases rc with
      | true => exact ih hv' s1 hb' hk (by omega)
      | false => exact ⟨_, rfl⟩

/-! ## Skipping the header of a block -/

theorem mask_eq (n : Nat) : n &&& sizeMask = n % 2 ^ 28 := by
  rw [show sizeMask = 2 ^ 28 - 1 from rfl, Nat.and_two_pow_sub_one_eq_mod]

/-- After `k` bytes of the content were read, the rest of the block header is skipped, or bad data is
reported when the header is shorter than what was read or leaves the block. -/
theorem skipHeader_spec {m : List UInt8} {p : Nat} {b : Block} (hh : Holds m p b) (hb : b.ok)
    (hm : m.length < 2 ^ 64) {k : Nat} (hk : k ≤ b.payload.length) :
    skipHeader m { pos := p + 12 + k, fin := p + 12 + b.payload.length } p =
      .ok (if 12 + k ≤ b.hsize % 2 ^ 28 ∧ b.hsize % 2 ^ 28 ≤ 12 + b.payload.length then
          (true, { pos := p + b.hsize % 2 ^ 28, fin := p + 12 + b.payload.length })
        else (false, { pos := p + 12 + k, fin := p + 12 + b.payload.length })) := by
  have hv := hh.valid hm
  have hlen := hb.2.2
  unfold skipHeader
  rw [hh.hsize hb]
  simp only [Res.bind, mask_eq]
  generalize b.hsize % 2 ^ 28 = x
  have hr : (p + 12 + k - p) % 2 ^ 32 = 12 + k := by
    rw [show p + 12 + k - p = 12 + k by omega]
    exact Nat.mod_eq_of_lt (by omega)
  rw [if_neg (show ¬ p + 12 + k < p by omega), hr]
  have hv' : Valid m { pos := p + 12 + k, fin := p + 12 + b.payload.length } :=
    ⟨by dsimp only; omega, hv.fin, hm⟩
  have hbl := bytes_length hv'
  dsimp only at hbl
  by_cases h1 : x < 12 + k
  · rw [if_pos h1, if_neg (by omega)]
  · rw [if_neg h1]
    by_cases h2 : x > 12 + k
    · rw [if_pos h2]
      rcases getPtr_spec hv' (x - (12 + k)) with ⟨hl, e, _, _⟩ | ⟨hl, e⟩
      · rw [e, if_pos (by omega)]
        dsimp only
        rw [show p + 12 + k + (x - (12 + k)) = p + x by omega]
      · rw [e, if_neg (by omega)]
    · rw [if_neg h2, if_pos (by omega)]
      have : x = 12 + k := by omega
      subst this
      rw [Nat.add_assoc p]

/-- Reading a structure of `n` bytes at the start of a block. -/
theorem read_fields {m : List UInt8} {p : Nat} {b : Block} (hh : Holds m p b) (hm : m.length < 2 ^ 64)
    {n : Nat} :
    Rstream.read m (b.rs p) n = if n ≤ b.payload.length then
      .ok (some (b.payload.take n), { pos := p + 12 + n, fin := p + 12 + b.payload.length })
      else .ok (none, b.rs p) := by
  have hv := hh.valid hm
  unfold Rstream.read
  rw [left_eq hv, show (b.rs p).fin - (b.rs p).pos = b.payload.length by simp [Block.rs]]
  by_cases hn : n ≤ b.payload.length
  · rw [if_neg (by omega), if_pos hn]
    have h1 : (b.rs p).pos + n ≤ m.length := by
      have := hv.fin; simp only [Block.rs] at *; omega
    have h2 := bytes_take hv (n := n) (by simp [Block.rs]; omega)
    rw [hh.bytes] at h2
    unfold load
    rw [if_pos h1, ← h2]
    rfl
  · rw [if_pos (by omega), if_neg hn]

/-- C13: the handlers of the usual form never misbehave, whatever the block holds. -/
theorem handlers_safe (sc : Schema) {m : List UInt8} (hm : m.length < 2 ^ 64) :
    ∀ (d ctx : Nat) (id : Nat) (f : Nat → Rs → List Ev → Res (Bool × List Ev)),
      handlers sc m d ctx id = some f → ∀ (p : Nat) (b : Block) (s : List Ev), b.id = id → b.ok →
        Holds m p b → b.payload.length < d → ∃ r, f p (b.rs p) s = .ok r := by
  intro d
  induction d with
  | zero => intro ctx id f _ p b s _ _ _ h; omega
  | succ d ih =>
    intro ctx id f hf p b s hid hb hh hd
    unfold handlers at hf
    cases hs : sc ctx id with
    | none => rw [hs] at hf; exact nomatch hf
    | some q =>
      obtain ⟨n, kids⟩ := q
      rw [hs] at hf
      injection hf with hf
      subst hf
      dsimp only
      have hv := hh.valid hm
      rw [read_fields hh hm]
      by_cases hn : n ≤ b.payload.length
      · rw [if_pos hn]
        dsimp only
        rw [skipHeader_spec hh hb hm hn]
        by_cases hsk : 12 + n ≤ b.hsize % 2 ^ 28 ∧ b.hsize % 2 ^ 28 ≤ 12 + b.payload.length
        · rw [if_pos hsk]
          dsimp only
          have hv2 : Valid m { pos := p + b.hsize % 2 ^ 28, fin := p + 12 + b.payload.length } :=
            ⟨by dsimp only; omega, hv.fin, hm⟩
          cases kids with
          | none =>
            dsimp only [getLeft]
            rw [left_eq hv2]
            dsimp only
            unfold load
            rw [if_pos (by have := hv2.fin; dsimp only at this; omega)]
            exact ⟨_, rfl⟩
          | some ctx' =>
            dsimp only
            have g1 : (bytes m { pos := p + b.hsize % 2 ^ 28, fin := p + 12 + b.payload.length }).length
                ≤ b.payload.length := by
              rw [bytes_length hv2]
              dsimp only
              omega
            have g2 : b.payload.length ≤ m.length := by
              have := hv.fin
              simp only [Block.rs] at *
              omega
            obtain ⟨⟨rc, s1⟩, er⟩ := readBlocks_safe (h := handlers sc m d ctx') (L := b.payload.length)
              (fun id' f' hf' p' b' s' hid' hb' hh' hl' =>
                ih ctx' id' f' hf' p' b' s' hid' hb' hh' (by omega))
              hv2 g1 (fuel := m.length + 1) (by omega) (s ++ [.opened id (b.payload.take n)])
            rw [er]
            cases rc <;> exact ⟨_, rfl⟩
        · rw [if_neg hsk]; exact ⟨_, rfl⟩
      · rw [if_neg hn]; exact ⟨_, rfl⟩

theorem load_ok {m : List UInt8} {p n : Nat} (h : p + n ≤ m.length) :
    load m p n = .ok ((m.drop p).take n) := by
  unfold load
  rw [if_pos h]

theorem load32_ok {m : List UInt8} {p : Nat} (h : p + 4 ≤ m.length) :
    ∃ n, n < 2 ^ 32 ∧ load32 m p = .ok n := by
  obtain ⟨n, r, hn, e⟩ := split32 (l := m.drop p) (by rw [List.length_drop]; omega)
  refine ⟨n, hn, load32_at' hn (pre := m.take p) (post := r) ?_ (by rw [List.length_take]; omega)⟩
  rw [← e, List.take_append_drop]

theorem bind_ok' {α : Type} {β : Type} (a : α) (f : α → Res β) : (Res.ok a).bind f = f a := rfl

/-- C13: the file header is read safely, and what is delivered lies in the file. -/
theorem readFileHeader_safe (m : List UInt8) (hm : m.length < 2 ^ 64) (type : Nat) :
    ∃ rc, readFileHeader m type = .ok rc ∧
      ∀ rs, rc = .ok rs → Valid m rs ∧ 32 ≤ rs.pos ∧ rs.fin = m.length := by
  unfold readFileHeader
  have hfh : (fileHdr : Nat) = 32 := rfl
  by_cases h : m.length < fileHdr
  · rw [if_pos h]
    exact ⟨_, rfl, fun _ h => nomatch h⟩
  · rw [if_neg h, load_ok (by omega), bind_ok']
    generalize hx : (m.drop 0).take fileHdr = x
    have hl : x.length = 32 := by
      rw [← hx, List.length_take, List.length_drop]; omega
    obtain ⟨a, _, ea⟩ := load32_ok (m := x) (p := 0) (by omega)
    obtain ⟨b, _, eb⟩ := load32_ok (m := x) (p := 8) (by omega)
    obtain ⟨c, _, ec⟩ := load32_ok (m := x) (p := 16) (by omega)
    obtain ⟨d, _, ed⟩ := load32_ok (m := x) (p := 20) (by omega)
    rw [ea, bind_ok', eb, bind_ok', ec, bind_ok', ed, bind_ok']
    generalize b &&& sizeMask = y
    split
    · exact ⟨_, rfl, fun _ h => nomatch h⟩
    · split
      · exact ⟨_, rfl, fun _ h => nomatch h⟩
      · split
        · exact ⟨_, rfl, fun _ h => nomatch h⟩
        · split
          · exact ⟨_, rfl, fun _ h => nomatch h⟩
          · split
            · exact ⟨_, rfl, fun _ h => nomatch h⟩
            · split
              · exact ⟨_, rfl, fun _ h => nomatch h⟩
              · refine ⟨_, rfl, ?_⟩
                intro rs hrs
                injection hrs with hrs
                subst hrs
                exact ⟨⟨by dsimp only; omega, Nat.le_refl _, hm⟩, by dsimp only; omega, rfl⟩

/-- zlib's contract: not more than the room given is written. -/
def Bounded (z : Nat → List UInt8 → Option (List UInt8)) : Prop :=
  ∀ room comp out, z room comp = some out → out.length ≤ room

theorem inflate_safe {z : Nat → List UInt8 → Option (List UInt8)} (hz : Bounded z) {m : List UInt8}
    {rs : Rs} (hv : Valid m rs) (h32 : 32 ≤ rs.pos) (maxSize : Nat) :
    ∃ r, inflate z m maxSize rs false = .ok r ∧ ∀ m' rs', r = some (m', rs') → Valid m' rs' := by
  have hfh : (fileHdr : Nat) = 32 := rfl
  have h1 := hv.le
  have h2 := hv.fin
  unfold inflate
  rw [load_ok (by omega), bind_ok']
  generalize hx : (m.drop 0).take fileHdr = x
  have hl : x.length = 32 := by
    rw [← hx, List.length_take, List.length_drop]; omega
  obtain ⟨a, _, ea⟩ := load32_ok (m := x) (p := 8) (by omega)
  obtain ⟨b, hb, eb⟩ := load32_ok (m := x) (p := 12) (by omega)
  rw [ea, bind_ok', eb, bind_ok']
  generalize a &&& sizeMask = y
  split
  · refine ⟨_, rfl, ?_⟩
    intro m' rs' h
    cases h
    exact hv
  · split
    · exact ⟨_, rfl, fun _ _ h => nomatch h⟩
    · split
      · exact ⟨_, rfl, fun _ _ h => nomatch h⟩
      · unfold getLeft
        dsimp only
        rw [left_eq hv, load_ok (by omega), bind_ok']
        cases hzz : z (b - y) ((m.drop rs.pos).take (rs.fin - rs.pos)) with
        | none => exact ⟨_, rfl, fun _ _ h => nomatch h⟩
        | some p =>
          have := hz _ _ _ hzz
          dsimp only
          rw [if_neg (by omega)]
          refine ⟨_, rfl, ?_⟩
          intro m' rs' h
          cases h
          exact ⟨Nat.zero_le _, Nat.le_refl _, by omega⟩

/-- C33 for memory that does not come from a pool: reading a file of any bytes with handlers of the
usual form ends without touching a byte outside the file or the decompressed data. Full statement: the
same for both values of the last argument of `readFile`; `pool_inflate_ub` shows that it is false. -/
theorem readFile_safe_partial (sc : Schema) {z : Nat → List UInt8 → Option (List UInt8)} (hz : Bounded z)
    (m : List UInt8) (hm : m.length < 2 ^ 64) (type ctx maxSize : Nat) :
    ∃ r, readFile sc z m type ctx maxSize false = .ok r := by
  unfold readFile
  obtain ⟨rc, e, h⟩ := readFileHeader_safe m hm type
  rw [e]
  cases rc with
  | bad => exact ⟨_, rfl⟩
  | declined => exact ⟨_, rfl⟩
  | ok rs =>
    obtain ⟨hv, h32, hfin⟩ := h rs rfl
    obtain ⟨r, er, hr⟩ := inflate_safe hz hv h32 maxSize
    dsimp only
    rw [er]
    cases r with
    | none => exact ⟨_, rfl⟩
    | some q =>
      obtain ⟨m', rs'⟩ := q
      have hv' := hr m' rs' rfl
      dsimp only
      have hlen : (bytes m' rs').length ≤ m'.length := by
        rw [bytes_length hv']; have := hv'.fin; omega
      obtain ⟨⟨rc, s1⟩, er⟩ := readBlocks_safe (h := handlers sc m' (m'.length + 1) ctx)
        (L := m'.length) (fun id f hf p b s hid hb hh hl =>
          handlers_safe sc hv'.size _ _ _ _ hf p b s hid hb hh (by omega)) hv' hlen
        (fuel := m'.length + 1) (by omega) []
      rw [er]
      cases rc <;> exact ⟨_, rfl⟩

/-- C33 fails for files decompressed into pool memory (as the packager does, ngx_pckg_ksmp.c:1612): a file
marked as compressed whose data does not decompress makes `ngx_persist_read_inflate` give pool memory
to `ngx_free`. The witness has the right type and version, and sizes that are in range. -/
theorem pool_inflate_ub (sc : Schema) :
    readFile sc (fun _ _ => none) (le32 0x66706c6b ++ le32 33 ++ le32 (32 ||| 0x40000000) ++ le32 40 ++
      le32 10 ++ le32 7 ++ le32 0 ++ le32 0 ++ [1]) 7 0 0 true = .ub := by
  rfl

/-- Two blocks, the second one unknown to the reader, and a truncated one: the hypotheses of
`readBlocks_exact` hold and the handler of block 5 gets the content [1, 2, 3]. -/
example : Parse (Block.bytes ⟨5, 12, [1, 2, 3]⟩ ++ (Block.bytes ⟨6, 12, [4]⟩ ++ [9, 9]))
      [⟨5, 12, [1, 2, 3]⟩, ⟨6, 12, [4]⟩] false ∧
    handleAll (S := List (List UInt8)) (fun id => if id = 5 then some fun _ p s => .ok (true, s ++ [p]) else none)
      false [⟨5, 12, [1, 2, 3]⟩, ⟨6, 12, [4]⟩] [] = .ok (false, [[1, 2, 3]]) := by
  refine ⟨.block ⟨by decide, by decide, by decide⟩ (.block ⟨by decide, by decide, by decide⟩
    (.bad (by decide) ?_)), rfl⟩
  intro b rest _ h
  have := congrArg List.length h
  rw [List.length_append, Block.bytes_length] at this
  simp at this
  omega

end Verif.Persist
