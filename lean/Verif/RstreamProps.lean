import Verif.Rstream

/-!
# Property C10: reading from memory
-/

namespace Verif.Rstream

/-! ## Specification

A stream is the list of bytes that are left in it. -/

/-- The number in the first four bytes, least significant first. -/
def num32 (a b c d : UInt8) : Nat :=
  a.toNat + 256 * b.toNat + 65536 * c.toNat + 16777216 * d.toNat

/-- Taking the next `n` bytes: all of them, or nothing at all. -/
def specTake (n : Nat) (bytes : List UInt8) : Option (List UInt8) × List UInt8 :=
  if n ≤ bytes.length then (some (bytes.take n), bytes.drop n) else (none, bytes)

/-- Taking a string preceded by its length, not longer than `max` if given. When the length is
there but the string is not, the length is consumed. -/
def specStr (max : Option Nat) : List UInt8 → Option (List UInt8) × List UInt8
  | a :: b :: c :: d :: rest =>
    if ∀ m ∈ max, num32 a b c d ≤ m then specTake (num32 a b c d) rest else (none, rest)
  | short => (none, short)

/-- Outcome `o` and bytes left afterwards `after` allowed for a call on a stream with the bytes
`before` left. -/
def Spec (op : Op) (before : List UInt8) (o : Out) (after : List UInt8) : Prop :=
  match op with
  | .read _ n | .ptr _ n | .stream _ n => (o, after) = specTake n before
  | .str _ => (o, after) = specStr none before
  | .strFixed _ max => (o, after) = specStr (some max) before
  | .list _ esize _ count =>
    if esize * count ≤ before.length then
      o = some (before.take (esize * count)) ∧ after = before.drop (esize * count)
    else o = none ∧ after <:+ before

/-- The stream a call works on. -/
def Op.target : Op → Nat
  | .read i _ | .ptr i _ | .stream i _ | .str i | .strFixed i _ | .list i _ _ _ => i

/-! ## Proofs -/

/-- The stream lies in the input. -/
structure Valid (m : List UInt8) (rs : Rs) : Prop where
  le   : rs.pos ≤ rs.fin
  fin  : rs.fin ≤ m.length
  size : m.length < 2 ^ 64

/-- The bytes left in a stream. -/
def bytes (m : List UInt8) (rs : Rs) : List UInt8 := (m.take rs.fin).drop rs.pos

theorem left_eq {m : List UInt8} {rs : Rs} (h : Valid m rs) : left rs = rs.fin - rs.pos := by
  obtain ⟨h1, h2, h3⟩ := h
  unfold left
  rw [if_pos h1]

theorem bytes_length {m : List UInt8} {rs : Rs} (h : Valid m rs) :
    (bytes m rs).length = rs.fin - rs.pos := by
  obtain ⟨h1, h2, h3⟩ := h
  simp only [bytes, List.length_drop, List.length_take]
  omega

theorem bytes_take {m : List UInt8} {rs : Rs} (h : Valid m rs) {n : Nat}
    (hn : n ≤ rs.fin - rs.pos) : (bytes m rs).take n = (m.drop rs.pos).take n := by
  obtain ⟨h1, h2, h3⟩ := h
  unfold bytes
  rw [List.drop_take, List.take_take, Nat.min_eq_left hn]

theorem bytes_drop {m : List UInt8} {rs : Rs} {n : Nat} :
    bytes m { rs with pos := rs.pos + n } = (bytes m rs).drop n := by
  simp [bytes, List.drop_drop]

theorem read_spec {m : List UInt8} {rs : Rs} (h : Valid m rs) (n : Nat) :
    ∃ o rs', read m rs n = .ok (o, rs') ∧ Valid m rs' ∧ rs'.fin = rs.fin ∧ rs.pos ≤ rs'.pos ∧
      (o, bytes m rs') = specTake n (bytes m rs) := by
  unfold read specTake
  rw [left_eq h, bytes_length h]
  obtain ⟨h1, h2, h3⟩ := h
  by_cases hn : n ≤ rs.fin - rs.pos
  · rw [if_neg (by omega), if_pos hn]
    have : rs.pos + n ≤ m.length := by omega
    simp only [load, if_pos this]
    refine ⟨_, _, rfl, ⟨by simp only; omega, h2, h3⟩, rfl, by simp, ?_⟩
    rw [bytes_drop, bytes_take ⟨h1, h2, h3⟩ hn]
  · rw [if_pos (by omega), if_neg hn]
    exact ⟨_, _, rfl, ⟨h1, h2, h3⟩, rfl, Nat.le_refl _, rfl⟩

theorem getPtr_spec {m : List UInt8} {rs : Rs} (h : Valid m rs) (n : Nat) :
    (n ≤ (bytes m rs).length ∧ getPtr rs n = (some rs.pos, { rs with pos := rs.pos + n }) ∧
      view m rs.pos n = .ok (some ((bytes m rs).take n)) ∧
      Valid m { rs with pos := rs.pos + n }) ∨
    ((bytes m rs).length < n ∧ getPtr rs n = (none, rs)) := by
  unfold getPtr
  rw [left_eq h, bytes_length h]
  by_cases hn : n ≤ rs.fin - rs.pos
  · rw [if_neg (by omega)]
    refine Or.inl ⟨hn, rfl, ?_, ?_⟩
    · rw [bytes_take h hn]
      obtain ⟨h1, h2, h3⟩ := h
      simp only [view, load, if_pos (show rs.pos + n ≤ m.length by omega), Res.map]
    · obtain ⟨h1, h2, h3⟩ := h
      exact ⟨by simp only; omega, h2, h3⟩
  · rw [if_pos (by omega)]
    exact Or.inr ⟨by omega, rfl⟩

theorem four {l : List UInt8} (h : 4 ≤ l.length) : ∃ a b c d r, l = a :: b :: c :: d :: r := by
  match l, h with
  | a :: b :: c :: d :: r, _ => exact ⟨a, b, c, d, r, rfl⟩

theorem specStr_short {mx : Option Nat} {l : List UInt8} (h : l.length < 4) :
    specStr mx l = (none, l) := by
  match l, h with
  | [], _ | [_], _ | [_, _], _ | [_, _, _], _ => rfl

theorem ofLe32_num32 (a b c d : UInt8) : ofLe32 [a, b, c, d] = .ok (num32 a b c d) := by
  simp only [ofLe32, num32]

theorem strGet_spec {m : List UInt8} {rs : Rs} (h : Valid m rs) :
    ∃ o rs', strGet m rs = .ok (o, rs') ∧ Valid m rs' ∧ rs'.fin = rs.fin ∧
      ∃ v, (match o with | none => .ok none | some (p, n) => view m p n) = Res.ok v ∧
        (v, bytes m rs') = specStr none (bytes m rs) := by
  obtain ⟨o, rs1, e1, hv1, hf1, _, hs1⟩ := read_spec h 4
  unfold strGet
  rw [e1]
  unfold specTake at hs1
  by_cases h4 : 4 ≤ (bytes m rs).length
  · rw [if_pos h4] at hs1
    obtain ⟨a, b, c, d, r, hr⟩ := four h4
    rw [hr] at hs1 ⊢
    simp only [List.take_succ_cons, List.take_zero, List.drop_succ_cons, List.drop_zero,
      Prod.mk.injEq] at hs1
    obtain ⟨ho, hb⟩ := hs1
    subst ho
    simp only [ofLe32_num32, specStr]
    generalize num32 a b c d = len
    rw [if_pos (by intro x hx; exact nomatch hx)]
    rcases getPtr_spec hv1 len with ⟨hl, e, hvw, hv⟩ | ⟨hl, e⟩
    · rw [e]
      refine ⟨_, _, rfl, hv, hf1, _, hvw, ?_⟩
      rw [bytes_drop, hb]
      rw [hb] at hl
      simp only [specTake, if_pos hl]
    · rw [e]
      refine ⟨_, _, rfl, hv1, hf1, _, rfl, ?_⟩
      rw [hb] at hl ⊢
      simp only [specTake, if_neg (Nat.not_le.2 hl)]
  · rw [if_neg h4] at hs1
    simp only [Prod.mk.injEq] at hs1
    obtain ⟨ho, hb⟩ := hs1
    subst ho
    refine ⟨_, _, rfl, hv1, hf1, _, rfl, ?_⟩
    rw [specStr_short (by omega), hb]

theorem strFixed_spec {m : List UInt8} {rs : Rs} (h : Valid m rs) (max : Nat) :
    ∃ o rs', strFixed m rs max max = .ok (o, rs') ∧ Valid m rs' ∧ rs'.fin = rs.fin ∧
      (o, bytes m rs') = specStr (some max) (bytes m rs) := by
  obtain ⟨o, rs1, e1, hv1, hf1, _, hs1⟩ := read_spec h 4
  unfold strFixed
  rw [e1]
  unfold specTake at hs1
  by_cases h4 : 4 ≤ (bytes m rs).length
  · rw [if_pos h4] at hs1
    obtain ⟨a, b, c, d, r, hr⟩ := four h4
    rw [hr] at hs1 ⊢
    simp only [List.take_succ_cons, List.take_zero, List.drop_succ_cons, List.drop_zero,
      Prod.mk.injEq] at hs1
    obtain ⟨ho, hb⟩ := hs1
    subst ho
    simp only [ofLe32_num32, specStr]
    generalize num32 a b c d = len
    by_cases hm : len > max
    · rw [if_pos hm, if_neg (by intro hx; exact absurd (hx max rfl) (by omega))]
      exact ⟨_, _, rfl, hv1, hf1, by rw [hb]⟩
    · rw [if_neg hm, if_pos (by intro x hx; cases hx; omega)]
      obtain ⟨o2, rs2, e2, hv2, hf2, _, hs2⟩ := read_spec hv1 len
      rw [e2]
      rw [hb] at hs2
      cases o2 with
      | none => exact ⟨_, _, rfl, hv2, hf2.trans hf1, hs2⟩
      | some s =>
        dsimp only
        have hl : s.length ≤ max := by
          unfold specTake at hs2
          split at hs2
          · simp only [Prod.mk.injEq, Option.some.injEq] at hs2
            rw [hs2.1, List.length_take]; omega
          · simp at hs2
        rw [if_neg (by omega)]
        exact ⟨_, _, rfl, hv2, hf2.trans hf1, hs2⟩
  · rw [if_neg h4] at hs1
    simp only [Prod.mk.injEq] at hs1
    obtain ⟨ho, hb⟩ := hs1
    subst ho
    refine ⟨_, _, rfl, hv1, hf1, ?_⟩
    rw [specStr_short (by omega), hb]

theorem readListLoop_spec {m : List UInt8} {esize nalloc : Nat} (hna : 0 < nalloc) :
    ∀ (fuel : Nat) (done : List (List UInt8)) (last : List UInt8) (nelts : Nat) (rs : Rs)
      (count : Nat), Valid m rs → count < fuel → nelts ≤ nalloc →
    ∃ rc parts rs', readListLoop m esize nalloc fuel done last nelts rs count = .ok (rc, parts, rs') ∧
      Valid m rs' ∧ rs'.fin = rs.fin ∧
      (if esize * count ≤ (bytes m rs).length then
        rc = true ∧ parts.flatten = done.flatten ++ last ++ (bytes m rs).take (esize * count) ∧
          bytes m rs' = (bytes m rs).drop (esize * count)
      else rc = false ∧ bytes m rs' <:+ bytes m rs)
  | 0, _, _, _, _, _, _, h, _ => by omega
  | fuel + 1, done, last, nelts, rs, count, hv, hf, hne => by
    unfold readListLoop
    by_cases hc : count = 0
    · rw [if_pos hc]
      refine ⟨_, _, _, rfl, hv, rfl, ?_⟩
      subst hc
      simp
    · rw [if_neg hc]
      generalize hst : (if nelts ≥ nalloc then (done ++ [last], ([] : List UInt8), 0)
        else (done, last, nelts)) = st
      obtain ⟨done', last', nelts'⟩ := st
      have hfl : done'.flatten ++ last' = done.flatten ++ last ∧ nelts' < nalloc := by
        split at hst <;> cases hst
        · exact ⟨by simp, hna⟩
        · exact ⟨rfl, by omega⟩
      clear hst
      dsimp only
      generalize hch : (if nalloc - nelts' > count then count else nalloc - nelts') = chunk
      have hck : chunk ≤ count ∧ 0 < chunk ∧ nelts' + chunk ≤ nalloc := by
        split at hch <;> subst hch <;> omega
      clear hch
      have hmul : esize * count = esize * chunk + esize * (count - chunk) := by
        rw [← Nat.mul_add, Nat.add_sub_cancel' hck.1]
      obtain ⟨o, rs1, e1, hv1, hf1, _, hs1⟩ := read_spec hv (esize * chunk)
      rw [e1]
      unfold specTake at hs1
      by_cases hl : esize * chunk ≤ (bytes m rs).length
      · rw [if_pos hl] at hs1
        simp only [Prod.mk.injEq] at hs1
        obtain ⟨ho, hb⟩ := hs1
        subst ho
        dsimp only
        obtain ⟨rc, parts, rs', e2, hv2, hf2, hs2⟩ := readListLoop_spec hna fuel done'
          (last' ++ (bytes m rs).take (esize * chunk)) (nelts' + chunk) rs1 (count - chunk) hv1
          (by omega) hck.2.2
        refine ⟨rc, parts, rs', e2, hv2, hf2.trans hf1, ?_⟩
        have hlen : (bytes m rs1).length = (bytes m rs).length - esize * chunk := by
          rw [hb, List.length_drop]
        by_cases hall : esize * count ≤ (bytes m rs).length
        · rw [if_pos hall]
          rw [if_pos (by omega)] at hs2
          obtain ⟨g1, g2, g3⟩ := hs2
          refine ⟨g1, ?_, ?_⟩
          · rw [g2, ← List.append_assoc, hfl.1, hb, hmul, List.append_assoc, List.append_assoc,
              ← List.take_add, List.append_assoc]
          · rw [g3, hb, List.drop_drop, hmul]
        · rw [if_neg hall]
          rw [if_neg (by omega)] at hs2
          refine ⟨hs2.1, hs2.2.trans ?_⟩
          rw [hb]; exact List.drop_suffix _ _
      · rw [if_neg hl] at hs1
        simp only [Prod.mk.injEq] at hs1
        obtain ⟨ho, hb⟩ := hs1
        subst ho
        refine ⟨_, _, _, rfl, hv1, hf1, ?_⟩
        rw [if_neg (by omega)]
        exact ⟨rfl, by rw [hb]; exact List.suffix_refl _⟩

/-- The stream a call opens: a sub-stream holding the bytes delivered. -/
def opened : Op → Out → List (List UInt8)
  | .stream _ _, some sub => [sub]
  | _, _ => []

/-- C10: on streams inside the input no call touches a byte outside it. A call delivers exactly what
the specification says about the bytes left in its stream, leaves the other streams alone, and all
streams stay in the input; a sub-stream holds exactly the bytes delivered. -/
theorem step_exact {m : List UInt8} {ss : List Rs} {op : Op}
    (hv : ∀ rs ∈ ss, Valid m rs) (hok : op.ok ss) :
    ∃ o ss' before after, step m ss op = .ok (o, ss') ∧ (∀ rs ∈ ss', Valid m rs) ∧
      (ss.map (bytes m))[op.target]? = some before ∧
      Spec op before o after ∧
      ss'.map (bytes m) = (ss.map (bytes m)).set op.target after ++
        opened op o := by
  have hget : ∀ i, i < ss.length → ∃ rs, ss[i]? = some rs ∧ Valid m rs := by
    intro i hi
    exact ⟨ss[i], List.getElem?_eq_getElem hi, hv _ (List.getElem_mem hi)⟩
  have hset : ∀ i rs, Valid m rs → ∀ x ∈ ss.set i rs, Valid m x := by
    intro i rs hr x hx
    rcases List.mem_or_eq_of_mem_set hx with h | h
    · exact hv x h
    · rw [h]; exact hr
  have hmap : ∀ i rs, (ss.set i rs).map (bytes m) = (ss.map (bytes m)).set i (bytes m rs) := by
    intro i rs; rw [List.map_set]
  cases op with
  | read i n =>
    obtain ⟨rs, hrs, hvr⟩ := hget i hok
    obtain ⟨o, rs', e, hv', _, _, hs⟩ := read_spec hvr n
    refine ⟨o, ss.set i rs', bytes m rs, bytes m rs', ?_, hset i rs' hv', ?_, hs, ?_⟩
    · simp [step, hrs, e]
    · simp [Op.target, hrs]
    · simp [opened, hmap, Op.target]
  | ptr i n =>
    obtain ⟨rs, hrs, hvr⟩ := hget i hok
    rcases getPtr_spec hvr n with ⟨hl, e, hvw, hv'⟩ | ⟨hl, e⟩
    · refine ⟨some ((bytes m rs).take n), ss.set i { rs with pos := rs.pos + n }, bytes m rs,
        (bytes m rs).drop n, ?_, hset i _ hv', ?_, ?_, ?_⟩
      · simp only [step, hrs, e, hvw, Res.map]
      · simp [Op.target, hrs]
      · simp only [Spec, specTake, if_pos hl]
      · simp [opened, hmap, Op.target, bytes_drop]
    · refine ⟨none, ss.set i rs, bytes m rs, bytes m rs, ?_, hset i _ hvr, ?_, ?_, ?_⟩
      · simp only [step, hrs, e]
      · simp [Op.target, hrs]
      · simp only [Spec, specTake, if_neg (Nat.not_le.2 hl)]
      · simp [opened, hmap, Op.target]
  | stream i n =>
    obtain ⟨rs, hrs, hvr⟩ := hget i hok
    rcases getPtr_spec hvr n with ⟨hl, e, hvw, hv'⟩ | ⟨hl, e⟩
    · have hsub : Valid m { pos := rs.pos, fin := rs.pos + n } :=
        ⟨by simp, by have := hv'.le; have := hv'.fin; simp only at *; omega, hvr.size⟩
      have hlf : left { pos := rs.pos, fin := rs.pos + n } = n := by
        rw [left_eq hsub]; simp
      have hbs : bytes m { pos := rs.pos, fin := rs.pos + n } = (bytes m rs).take n := by
        rw [bytes_take hvr (by rw [← bytes_length hvr]; exact hl)]
        simp only [bytes, List.drop_take, Nat.add_sub_cancel_left]
      refine ⟨some ((bytes m rs).take n),
        ss.set i { rs with pos := rs.pos + n } ++ [{ pos := rs.pos, fin := rs.pos + n }],
        bytes m rs, (bytes m rs).drop n, ?_, ?_, ?_, ?_, ?_⟩
      · simp only [step, hrs, getStream, e, getLeft, hlf, hvw, Res.map]
      · intro x hx
        rcases List.mem_append.1 hx with hx | hx
        · exact hset i _ hv' x hx
        · rw [List.mem_singleton.1 hx]; exact hsub
      · simp [Op.target, hrs]
      · simp only [Spec, specTake, if_pos hl]
      · rw [List.map_append, hmap, bytes_drop]
        simp [opened, Op.target, hbs]
    · refine ⟨none, ss.set i rs, bytes m rs, bytes m rs, ?_, hset i _ hvr, ?_, ?_, ?_⟩
      · simp only [step, hrs, getStream, e]
      · simp [Op.target, hrs]
      · simp only [Spec, specTake, if_neg (Nat.not_le.2 hl)]
      · simp [opened, hmap, Op.target]
  | str i =>
    obtain ⟨rs, hrs, hvr⟩ := hget i hok
    obtain ⟨o, rs', e, hv', _, v, hvw, hs⟩ := strGet_spec hvr
    refine ⟨v, ss.set i rs', bytes m rs, bytes m rs', ?_, hset i _ hv', ?_, hs, ?_⟩
    · cases o with
      | none => cases hvw; simp [step, hrs, e]
      | some q =>
        obtain ⟨p, n⟩ := q
        dsimp only at hvw
        simp only [step, hrs, e, hvw, Res.map]
    · simp [Op.target, hrs]
    · simp [opened, hmap, Op.target]
  | strFixed i max =>
    obtain ⟨rs, hrs, hvr⟩ := hget i hok
    obtain ⟨o, rs', e, hv', _, hs⟩ := strFixed_spec hvr max
    refine ⟨o, ss.set i rs', bytes m rs, bytes m rs', ?_, hset i _ hv', ?_, hs, ?_⟩
    · simp [step, hrs, e]
    · simp [Op.target, hrs]
    · simp [opened, hmap, Op.target]
  | list i esize nalloc count =>
    obtain ⟨rs, hrs, hvr⟩ := hget i hok.1
    obtain ⟨rc, parts, rs', e, hv', _, hs⟩ :=
      readListLoop_spec (esize := esize) hok.2 (count + 1) [] [] 0 rs count hvr (by omega) (by omega)
    refine ⟨if rc then some parts.flatten else none, ss.set i rs', bytes m rs, bytes m rs', ?_,
      hset i _ hv', ?_, ?_, ?_⟩
    · simp only [step, hrs, readList, e]
    · simp [Op.target, hrs]
    · unfold Spec
      dsimp only
      split at hs
      · rename_i hl
        rw [if_pos hl]
        obtain ⟨g1, g2, g3⟩ := hs
        subst g1
        exact ⟨by rw [if_pos rfl, g2]; simp, g3⟩
      · rename_i hl
        rw [if_neg hl]
        obtain ⟨g1, g2⟩ := hs
        subst g1
        exact ⟨rfl, g2⟩
    · simp [opened, hmap, Op.target]

/-- All calls of a history. -/
def run (m : List UInt8) : List Rs → List Op → Res (List Rs)
  | ss, [] => .ok ss
  | ss, op :: ops => match step m ss op with
    | .ok (_, ss') => run m ss' ops
    | .err => .err
    | .ub => .ub

/-- A call names an existing stream whatever happened before: the first stream never goes away. -/
def Op.fixed : Op → Prop
  | .read i _ | .ptr i _ | .stream i _ | .str i | .strFixed i _ => i = 0
  | .list i _ nalloc _ => i = 0 ∧ 0 < nalloc

/-- C10: every history of calls on a stream over any input (hostile lengths included) ends without
touching a byte outside the input, and what is left is always a suffix of the input. -/
theorem run_safe {m : List UInt8} (hm : m.length < 2 ^ 64) (ops : List Op)
    (hops : ∀ op ∈ ops, op.fixed) :
    ∃ ss, run m [{ pos := 0, fin := m.length }] ops = .ok ss ∧ (∀ rs ∈ ss, Valid m rs) ∧
      ∃ rs, ss[0]? = some rs ∧ bytes m rs <:+ m := by
  have key : ∀ (ops : List Op) (ss : List Rs), (∀ op ∈ ops, op.fixed) → (∀ rs ∈ ss, Valid m rs) →
      (∃ rs, ss[0]? = some rs ∧ bytes m rs <:+ m) →
      ∃ ss', run m ss ops = .ok ss' ∧ (∀ rs ∈ ss', Valid m rs) ∧
        ∃ rs, ss'[0]? = some rs ∧ bytes m rs <:+ m := by
    intro ops
    induction ops with
    | nil => intro ss _ hv h; exact ⟨ss, rfl, hv, h⟩
    | cons op ops ih =>
      intro ss hf hv h
      obtain ⟨rs0, hrs0, hsuf⟩ := h
      have hlen : 0 < ss.length := (List.getElem?_eq_some_iff.1 hrs0).1
      have hfix := hf op (List.mem_cons_self ..)
      have hok : op.ok ss := by
        cases op <;> simp only [Op.fixed] at hfix <;> simp only [Op.ok]
        all_goals first | omega | exact ⟨by omega, hfix.2⟩
      have ht : op.target = 0 := by
        cases op <;> simp only [Op.fixed] at hfix <;> simp only [Op.target]
        all_goals first | exact hfix | exact hfix.1
      obtain ⟨o, ss', before, after, e, hv', hb, hspec, hss⟩ := step_exact hv hok
      rw [ht] at hb hss
      rw [List.getElem?_map, hrs0] at hb
      simp only [Option.map_some, Option.some.injEq] at hb
      have hafter : after <:+ before := by
        have htake : ∀ n (o : Out) (a b : List UInt8), (o, a) = specTake n b → a <:+ b := by
          intro n o a b h
          unfold specTake at h
          split at h <;> simp only [Prod.mk.injEq] at h <;> rw [h.2]
          · exact List.drop_suffix _ _
          · exact List.suffix_refl _
        have hstr : ∀ mx (o : Out) (a b : List UInt8), (o, a) = specStr mx b → a <:+ b := by
          intro mx o a b h
          unfold specStr at h
          split at h
          · rename_i x y z w r
            have hr : r <:+ x :: y :: z :: w :: r := ⟨[x, y, z, w], rfl⟩
            split at h
            · exact (htake _ _ _ _ h).trans hr
            · simp only [Prod.mk.injEq] at h
              rw [h.2]; exact hr
          · simp only [Prod.mk.injEq] at h
            rw [h.2]; exact List.suffix_refl _
        cases op with
        | read => exact htake _ _ _ _ hspec
        | ptr => exact htake _ _ _ _ hspec
        | stream => exact htake _ _ _ _ hspec
        | str => exact hstr _ _ _ _ hspec
        | strFixed => exact hstr _ _ _ _ hspec
        | list =>
          unfold Spec at hspec
          dsimp only at hspec
          split at hspec
          · rw [hspec.2]; exact List.drop_suffix _ _
          · exact hspec.2
      have h0 : ∃ rs, ss'[0]? = some rs ∧ bytes m rs <:+ m := by
        have : (ss'.map (bytes m))[0]? = some after := by
          rw [hss, List.getElem?_append_left (by simpa using hlen)]
          simp [hlen]
        rw [List.getElem?_map] at this
        cases hx : ss'[0]? with
        | none => rw [hx] at this; exact nomatch this
        | some rs =>
          rw [hx] at this
          simp only [Option.map_some, Option.some.injEq] at this
          refine ⟨rs, rfl, ?_⟩
          rw [this]; rw [← hb] at hafter; exact hafter.trans hsuf
      obtain ⟨ss2, e2, r2⟩ := ih ss' (fun x hx => hf x (List.mem_cons_of_mem _ hx)) hv' h0
      refine ⟨ss2, ?_, r2⟩
      simp only [run, e, e2]
  refine key ops _ hops ?_ ⟨_, rfl, ?_⟩
  · intro rs hrs
    rw [List.mem_singleton.1 hrs]
    exact ⟨Nat.zero_le _, Nat.le_refl _, hm⟩
  · simp [bytes]

/-- C10: the same for histories that also read from sub-streams, sub-streams of these, and so on
(`err` is a call that names a stream that does not exist). -/
theorem run_all_streams_safe {m : List UInt8} (hm : m.length < 2 ^ 64) (ops : List Op)
    (hops : ∀ i esize nalloc count, Op.list i esize nalloc count ∈ ops → 0 < nalloc) :
    run m [{ pos := 0, fin := m.length }] ops ≠ .ub ∧
    ∀ ss, run m [{ pos := 0, fin := m.length }] ops = .ok ss →
      ∀ rs ∈ ss, rs.pos ≤ rs.fin ∧ rs.fin ≤ m.length := by
  have key : ∀ (ops : List Op) (ss : List Rs), (∀ rs ∈ ss, Valid m rs) →
      (∀ i esize nalloc count, Op.list i esize nalloc count ∈ ops → 0 < nalloc) →
      run m ss ops ≠ .ub ∧ ∀ ss', run m ss ops = .ok ss' → ∀ rs ∈ ss', Valid m rs := by
    intro ops
    induction ops with
    | nil =>
      intro ss hv _
      refine ⟨(fun h => nomatch h), ?_⟩
      intro ss' h
      cases h
      exact hv
    | cons op ops ih =>
      intro ss hv hn
      have hn' : ∀ i esize nalloc count, Op.list i esize nalloc count ∈ ops → 0 < nalloc :=
        fun i e n c h => hn i e n c (List.mem_cons_of_mem _ h)
      by_cases ht : op.target < ss.length
      · have hok : op.ok ss := by
          cases op with
          | list i e n c => exact ⟨ht, hn i e n c (List.mem_cons_self ..)⟩
          | _ => exact ht
        obtain ⟨o, ss', _, _, e, hv', _⟩ := step_exact hv hok
        simp only [run, e]
        exact ih ss' hv' hn'
      · have he : step m ss op = .err := by
          have hx : ss[op.target]? = none := List.getElem?_eq_none_iff.2 (by omega)
          cases op <;> simp only [Op.target] at hx <;> simp only [step, hx]
        simp only [run, he]
        exact ⟨(fun h => nomatch h), (fun _ h => nomatch h)⟩
  obtain ⟨h1, h2⟩ := key ops [{ pos := 0, fin := m.length }] (by
    intro rs hrs
    rw [List.mem_singleton.1 hrs]
    exact ⟨Nat.zero_le _, Nat.le_refl _, hm⟩) hops
  exact ⟨h1, fun ss h rs hrs => ⟨(h2 ss h rs hrs).le, (h2 ss h rs hrs).fin⟩⟩

theorem num32_le32 (n : Nat) (h : n < 2 ^ 32) :
    ∃ a b c d, le32 n = [a, b, c, d] ∧ num32 a b c d = n := by
  refine ⟨_, _, _, _, rfl, ?_⟩
  simp only [num32, UInt8.toNat_ofNat']
  omega

theorem specStr_wstream (s rest : List UInt8) (h : s.length < 2 ^ 32) :
    specStr none (wstreamStr s ++ rest) = (some s, rest) := by
  obtain ⟨a, b, c, d, e, hn⟩ := num32_le32 s.length h
  unfold wstreamStr
  rw [e, Nat.mod_eq_of_lt h, List.take_length]
  simp only [List.cons_append, List.nil_append, specStr]
  rw [if_pos (by intro x hx; exact nomatch hx), hn]
  simp [specTake]

/-- C10: a string shorter than 4G written with its length is read back exactly, and reading stops
right behind it. -/
theorem str_round_trip (pre s rest : List UInt8) (h : s.length < 2 ^ 32)
    (hm : (pre ++ wstreamStr s ++ rest).length < 2 ^ 64) :
    ∃ ss, step (pre ++ wstreamStr s ++ rest)
        [{ pos := pre.length, fin := (pre ++ wstreamStr s ++ rest).length }] (.str 0)
        = .ok (some s, ss) ∧ ss.map (bytes (pre ++ wstreamStr s ++ rest)) = [rest] := by
  generalize hmm : pre ++ wstreamStr s ++ rest = m at hm
  have hv : Valid m { pos := pre.length, fin := m.length } :=
    ⟨by rw [← hmm]; simp, Nat.le_refl _, hm⟩
  have hb : bytes m { pos := pre.length, fin := m.length } = wstreamStr s ++ rest := by
    unfold bytes
    dsimp only
    rw [List.take_length, ← hmm, List.append_assoc, List.drop_left]
  obtain ⟨o, ss, before, after, e, _, hbe, hsp, hss⟩ :=
    step_exact (op := .str 0) (ss := [{ pos := pre.length, fin := m.length }])
      (by intro rs hrs; rw [List.mem_singleton.1 hrs]; exact hv) (by simp [Op.ok])
  simp only [Op.target, List.map_cons, List.map_nil, hb, List.getElem?_cons_zero,
    Option.some.injEq] at hbe
  subst hbe
  simp only [Spec, specStr_wstream s rest h, Prod.mk.injEq] at hsp
  obtain ⟨ho, ha⟩ := hsp
  subst ho ha
  exact ⟨ss, e, by rw [hss]; simp [opened, Op.target]⟩

/-- Two strings, a number and a truncated string: hypotheses of `run_safe` met, calls succeed and
fail. -/
example : ∃ ss, run (wstreamStr [1, 2, 3] ++ [7, 7, 255, 255, 255, 255, 9])
      [{ pos := 0, fin := 14 }] [.str 0, .read 0 2, .str 0, .stream 0 1] = .ok ss ∧
      ss = [{ pos := 14, fin := 14 }, { pos := 13, fin := 14 }] := ⟨_, by decide, rfl⟩

end Verif.Rstream
