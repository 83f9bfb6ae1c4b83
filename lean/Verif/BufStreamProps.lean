import Verif.BufStream

/-!
# Property C03: the queue reader behaves like a cursor in a flat byte string

Specification: the content of the queue is the concatenation of its blocks, and a stream is a
position in it. A call that needs `n` bytes at position `p` succeeds exactly when `p + n` is
strictly inside the content (one more buffer must exist when the data ends at a buffer end).
-/

namespace Verif.BufStream

/-! ## Specification -/

/-- One request to the reader. -/
inductive Op (α : Type) where
  | read  (n : Nat)
  | skip  (n : Nat)
  | write (data : List α)

/-- Flat cursor: the content and a position. -/
structure Flat (α : Type) where
  content : List α
  pos     : Nat

/-- What a request returns to its caller. -/
inductive Reply (α : Type) where
  | bytes (l : List α)
  | done
  | failed
deriving DecidableEq, Repr

/-- The flat cursor's answer to one request (`none` for the state: the request failed and the
caller has to stop using the cursor). -/
def Flat.step {α : Type} (f : Flat α) : Op α → Reply α × Option (Flat α)
  | .read n =>
    if n = 0 ∨ f.pos + n < f.content.length then
      (.bytes ((f.content.drop f.pos).take n), some { f with pos := f.pos + n })
    else (.failed, none)
  | .skip n =>
    if f.pos + n < f.content.length then (.done, some { f with pos := f.pos + n })
    else (.failed, none)
  | .write d =>
    if d.length = 0 ∨ f.pos + d.length < f.content.length then
      (.done, some { content := f.content.take f.pos ++ d ++ f.content.drop (f.pos + d.length),
                     pos := f.pos + d.length })
    else (.failed, none)

/-- Run requests until one fails. -/
def Flat.run {α : Type} : Flat α → List (Op α) → List (Reply α) × Option (Flat α)
  | f, [] => ([], some f)
  | f, op :: ops =>
    match f.step op with
    | (r, some f') => let t := Flat.run f' ops; (r :: t.1, t.2)
    | (r, none) => ([r], none)

/-! ## The modelled code as a machine -/

/-- One request to the modelled reader: reply and, unless it failed, the new queue and stream. -/
def step {α : Type} (q : List (List α)) (s : Stream) :
    Op α → Res (Reply α × Option (List (List α) × Stream))
  | .read n =>
    match read q s n with
    | .ok (some l, s') => .ok (.bytes l, some (q, s'))
    | .ok (none, _) => .ok (.failed, none)
    | .err => .err
    | .ub => .ub
  | .skip n =>
    match skip q s n with
    | .ok (true, s') => .ok (.done, some (q, s'))
    | .ok (false, _) => .ok (.failed, none)
    | .err => .err
    | .ub => .ub
  | .write d =>
    match write q s d with
    | .ok (true, q', s') => .ok (.done, some (q', s'))
    | .ok (false, _, _) => .ok (.failed, none)
    | .err => .err
    | .ub => .ub

/-- Run requests on the modelled reader until one fails. -/
def run {α : Type} : List (List α) → Stream → List (Op α) →
    Res (List (Reply α) × Option (List (List α) × Stream))
  | q, s, [] => .ok ([], some (q, s))
  | q, s, op :: ops =>
    match step q s op with
    | .ok (r, some (q', s')) =>
      match run q' s' ops with
      | .ok (rs, e) => .ok (r :: rs, e)
      | .err => .err
      | .ub => .ub
    | .ok (r, none) => .ok ([r], none)
    | .err => .err
    | .ub => .ub

/-- The state relation: all blocks have `sz` bytes, the stream points strictly inside block
`s.node`, and the flat cursor is at the corresponding position. -/
structure Sim {α : Type} (sz : Nat) (q : List (List α)) (s : Stream) (f : Flat α) : Prop where
  size   : ∀ b ∈ q, b.length = sz
  same   : s.posNode = s.node
  inside : s.posOff < sz
  node   : s.node < q.length
  flat   : f.content = q.flatten
  pos    : f.pos = s.node * sz + s.posOff

/-! ## Helper lemmas -/

theorem flatten_length_of_size {α : Type} {sz : Nat} :
    ∀ (q : List (List α)), (∀ b ∈ q, b.length = sz) → q.flatten.length = q.length * sz
  | [], _ => by simp
  | b :: q, h => by
    have h1 := flatten_length_of_size q (fun x hx => h x (List.mem_cons_of_mem _ hx))
    have h2 := h b List.mem_cons_self
    simp only [List.flatten_cons, List.length_append, List.length_cons, h1, h2, Nat.succ_mul]
    omega

theorem readLoop_spec {α : Type} (sz : Nat) (hsz : 0 < sz) (rest : List (List α)) :
    ∀ (cur : List α) (i off size : Nat), cur.length = sz → (∀ b ∈ rest, b.length = sz) →
      off < sz →
      (size = 0 ∨ off + size < (cur :: rest).flatten.length →
        ∃ k o, readLoop cur rest i off size =
            (some (((cur :: rest).flatten.drop off).take size), i + k, o) ∧
          o < sz ∧ k ≤ rest.length ∧ k * sz + o = off + size) ∧
      (¬ (size = 0 ∨ off + size < (cur :: rest).flatten.length) →
        (readLoop cur rest i off size).1 = none) := by
  induction rest with
  | nil =>
    intro cur i off size hc _ hoff
    unfold readLoop
    simp only [List.flatten_cons, List.flatten_nil, List.append_nil]
    by_cases h0 : size = 0
    · subst h0
      refine ⟨fun _ => ⟨0, off, by simp, hoff, by simp, by simp⟩, fun h => absurd (Or.inl rfl) h⟩
    · simp only [h0, if_false, false_or]
      constructor
      · intro hlt
        have hmin : min (cur.length - off) size = size := by omega
        rw [hmin, if_neg (by omega)]
        exact ⟨0, off + size, by simp, by omega, by simp, by omega⟩
      · intro hge
        have : cur.length ≤ off + min (cur.length - off) size := by omega
        rw [if_pos this]
  | cons n rest ih =>
    intro cur i off size hc hr hoff
    have hn : n.length = sz := hr n List.mem_cons_self
    have hr' : ∀ b ∈ rest, b.length = sz := fun b hb => hr b (List.mem_cons_of_mem _ hb)
    unfold readLoop
    by_cases h0 : size = 0
    · subst h0
      refine ⟨fun _ => ⟨0, off, by simp, hoff, by simp, by simp⟩, fun h => absurd (Or.inl rfl) h⟩
    · simp only [h0, if_false, false_or]
      have hlen : (cur :: n :: rest).flatten.length = cur.length + (n :: rest).flatten.length := by
        simp
      rw [hlen]
      by_cases hge : cur.length ≤ off + min (cur.length - off) size
      · rw [if_pos hge]
        have hmin : min (cur.length - off) size = cur.length - off := by omega
        rw [hmin]
        have hih := ih n (i + 1) 0 (size - (cur.length - off)) hn hr' hsz
        have htake : (cur.drop off).take (cur.length - off) = cur.drop off :=
          List.take_of_length_le (by simp)
        constructor
        · intro hlt
          obtain ⟨k, o, he, ho, hk, hko⟩ := hih.1 (by clear hih; omega)
          clear hih
          refine ⟨k + 1, o, ?_, ho, by simp; omega, by rw [Nat.succ_mul]; omega⟩
          rw [he]
          simp only [Option.map_some, Prod.mk.injEq, Option.some.injEq, and_true, htake]
          constructor
          · rw [List.flatten_cons (l := cur), List.drop_append_of_le_length (by omega),
              List.take_append, List.length_drop,
              List.take_of_length_le (l := cur.drop off) (by simp; omega)]
            simp
          · omega
        · intro hno
          have := hih.2 (by
            clear hih
            have hpos : 0 < (n :: rest).flatten.length := by
              simp [hn]; omega
            omega)
          simp [this]
      · rw [if_neg hge]
        have hmin : min (cur.length - off) size = size := by omega
        rw [hmin]
        constructor
        · intro _
          refine ⟨0, off + size, ?_, by omega, by simp, by omega⟩
          simp only [Nat.add_zero, Prod.mk.injEq, Option.some.injEq, and_true]
          rw [List.flatten_cons (l := cur), List.drop_append_of_le_length (by omega),
            List.take_append_of_le_length (by simp; omega)]
        · intro hno; omega

theorem skipLoop_spec {α : Type} (sz : Nat) (rest : List (List α)) :
    ∀ (cur : List α) (i off size : Nat), cur.length = sz → (∀ b ∈ rest, b.length = sz) →
      off ≤ sz →
      (off + size < (cur :: rest).flatten.length →
        ∃ k o, skipLoop cur rest i off size = (true, i + k, o) ∧ o < sz ∧ k ≤ rest.length ∧
          k * sz + o = off + size) ∧
      (¬ (off + size < (cur :: rest).flatten.length) →
        (skipLoop cur rest i off size).1 = false) := by
  induction rest with
  | nil =>
    intro cur i off size hc _ hoff
    simp only [skipLoop, List.flatten_cons, List.flatten_nil, List.append_nil]
    constructor
    · intro h; rw [if_pos (by omega)]
      exact ⟨0, off + size, by simp, by omega, by simp, by omega⟩
    · intro h; rw [if_neg (by omega)]
  | cons n rest ih =>
    intro cur i off size hc hr hoff
    have hn : n.length = sz := hr n List.mem_cons_self
    have hr' : ∀ b ∈ rest, b.length = sz := fun b hb => hr b (List.mem_cons_of_mem _ hb)
    have hlen : (cur :: n :: rest).flatten.length = cur.length + (n :: rest).flatten.length := by
      simp
    rw [hlen]
    unfold skipLoop
    by_cases hlt : size < cur.length - off
    · simp only [if_pos hlt]
      exact ⟨fun _ => ⟨0, off + size, by simp, by omega, by simp, by omega⟩, fun h => by omega⟩
    · simp only [if_neg hlt]
      have hih := ih n (i + 1) 0 (size - (cur.length - off)) hn hr' (by omega)
      constructor
      · intro h
        obtain ⟨k, o, he, ho, hk, hko⟩ := hih.1 (by clear hih; omega)
        clear hih
        exact ⟨k + 1, o, by rw [he]; simp; omega, ho, by simp; omega, by rw [Nat.succ_mul]; omega⟩
      · intro h; exact hih.2 (by clear hih; omega)

theorem overwrite_length {α : Type} (b : List α) (off : Nat) (d : List α)
    (h : off + d.length ≤ b.length) : (overwrite b off d).length = b.length := by
  unfold overwrite; simp; omega

theorem writeLoop_spec {α : Type} (sz : Nat) (hsz : 0 < sz) (rest : List (List α)) :
    ∀ (cur : List α) (i off : Nat) (d : List α), cur.length = sz → (∀ b ∈ rest, b.length = sz) →
      off < sz →
      (d.length = 0 ∨ off + d.length < (cur :: rest).flatten.length →
        ∃ k o blocks, writeLoop cur rest i off d = (true, blocks, i + k, o) ∧
          o < sz ∧ k ≤ rest.length ∧ k * sz + o = off + d.length ∧
          blocks.length = (cur :: rest).length ∧ (∀ b ∈ blocks, b.length = sz) ∧
          blocks.flatten = (cur :: rest).flatten.take off ++ d ++
            (cur :: rest).flatten.drop (off + d.length)) ∧
      (¬ (d.length = 0 ∨ off + d.length < (cur :: rest).flatten.length) →
        (writeLoop cur rest i off d).1 = false) := by
  induction rest with
  | nil =>
    intro cur i off d hc _ hoff
    unfold writeLoop
    simp only [List.flatten_cons, List.flatten_nil, List.append_nil]
    by_cases h0 : d.length = 0
    · have hd : d = [] := List.eq_nil_of_length_eq_zero h0
      subst hd
      refine ⟨fun _ => ⟨0, off, [cur], by simp, hoff, by simp, by simp, by simp, by simpa using hc,
        by simp⟩, fun h => absurd (Or.inl rfl) h⟩
    · simp only [h0, if_false, false_or]
      constructor
      · intro hlt
        have hmin : min (cur.length - off) d.length = d.length := by omega
        rw [hmin, if_neg (by omega)]
        refine ⟨0, off + d.length, [overwrite cur off d], by simp, by omega, by simp, by omega,
          by simp, ?_, ?_⟩
        · simp only [List.mem_singleton, forall_eq]
          rw [overwrite_length _ _ _ (by omega)]; exact hc
        · simp [overwrite]
      · intro hge
        rw [if_pos (show cur.length ≤ off + min (cur.length - off) d.length by omega)]
  | cons n rest ih =>
    intro cur i off d hc hr hoff
    have hn : n.length = sz := hr n List.mem_cons_self
    have hr' : ∀ b ∈ rest, b.length = sz := fun b hb => hr b (List.mem_cons_of_mem _ hb)
    unfold writeLoop
    by_cases h0 : d.length = 0
    · have hd : d = [] := List.eq_nil_of_length_eq_zero h0
      subst hd
      refine ⟨fun _ => ⟨0, off, cur :: n :: rest, by simp, hoff, by simp, by simp, by simp, ?_,
        by simp⟩, fun h => absurd (Or.inl rfl) h⟩
      intro b hb
      rcases List.mem_cons.1 hb with h | h
      · rw [h]; exact hc
      · exact hr b h
    · simp only [h0, if_false, false_or]
      have hlen : (cur :: n :: rest).flatten.length = cur.length + (n :: rest).flatten.length := by
        simp
      rw [hlen]
      by_cases hge : cur.length ≤ off + min (cur.length - off) d.length
      · rw [if_pos hge]
        have hmin : min (cur.length - off) d.length = cur.length - off := by omega
        rw [hmin]
        have hih := ih n (i + 1) 0 (d.drop (cur.length - off)) hn hr' hsz
        rw [List.length_drop] at hih
        constructor
        · intro hlt
          obtain ⟨k, o, blocks, he, ho, hk, hko, hbl, hbs, hfl⟩ := hih.1 (by clear hih; omega)
          clear hih
          rw [he]
          refine ⟨k + 1, o, overwrite cur off (d.take (cur.length - off)) :: blocks, ?_, ho,
            by simp; omega, by rw [Nat.succ_mul]; omega, by simpa using hbl, ?_, ?_⟩
          · simp only [Prod.mk.injEq, true_and, and_true]; omega
          · intro b hb
            rcases List.mem_cons.1 hb with h | h
            · rw [h, overwrite_length _ _ _ (by simp; omega)]; exact hc
            · exact hbs b h
          · rw [List.flatten_cons (l := overwrite _ _ _), hfl]
            have hl1 : (d.take (cur.length - off)).length = cur.length - off := by
              rw [List.length_take]; omega
            have h1 : (cur :: n :: rest).flatten.take off = cur.take off := by
              rw [List.flatten_cons (l := cur), List.take_append_of_le_length (by omega)]
            have h2 : (cur :: n :: rest).flatten.drop (off + d.length)
                = (n :: rest).flatten.drop (d.length - (cur.length - off)) := by
              rw [List.flatten_cons (l := cur), List.drop_append, List.drop_of_length_le (l := cur) (by omega),
                List.nil_append]
              congr 1; omega
            rw [h1, h2]
            unfold overwrite
            rw [hl1, List.drop_of_length_le (l := cur) (by omega)]
            simp only [List.append_nil, List.take_zero, List.nil_append, Nat.zero_add,
              List.append_assoc]
            rw [← List.append_assoc (d.take _) (d.drop _), List.take_append_drop]
        · intro hno
          have := hih.2 (by
            clear hih
            have hpos : 0 < (n :: rest).flatten.length := by
              simp [hn]; omega
            omega)
          simp [this]
      · rw [if_neg hge]
        have hmin : min (cur.length - off) d.length = d.length := by omega
        rw [hmin]
        constructor
        · intro _
          refine ⟨0, off + d.length, overwrite cur off d :: n :: rest, by simp, by omega, by simp,
            by omega, by simp, ?_, ?_⟩
          · intro b hb
            rcases List.mem_cons.1 hb with h | h
            · rw [h, overwrite_length _ _ _ (by omega)]; exact hc
            · exact hr b h
          · simp only [List.flatten_cons (l := cur), List.flatten_cons (l := overwrite cur off d)]
            rw [List.take_append_of_le_length (by omega), List.drop_append_of_le_length (by omega)]
            simp [overwrite]
        · intro hno; omega

/-! ## C03 -/

theorem split_at {α : Type} (q : List (List α)) (i : Nat) (h : i < q.length) :
    q = q.take i ++ q[i] :: q.drop (i + 1) := by
  rw [← List.drop_eq_getElem_cons h, List.take_append_drop]

/-- One request: the modelled reader does what the flat cursor does, keeps the relation when the
request succeeds, and never reaches undefined behaviour. -/
theorem step_refines {α : Type} {sz : Nat} (hsz : 0 < sz) {q : List (List α)} {s : Stream}
    {f : Flat α} (h : Sim sz q s f) (op : Op α) :
    match f.step op with
    | (r, none) => step q s op = .ok (r, none)
    | (r, some f') => ∃ q' s', step q s op = .ok (r, some (q', s')) ∧ Sim sz q' s' f' := by
  obtain ⟨hsize, hsame, hin, hnode, hflat, hpos⟩ := h
  obtain ⟨content, pos⟩ := f
  simp only at hflat hpos
  subst hflat; subst hpos
  obtain ⟨node, posNode, posOff⟩ := s
  simp only at hsame hin hnode
  subst hsame
  have hq := split_at q posNode hnode
  have hcur : (q[posNode]).length = sz := hsize _ (List.getElem_mem _)
  have hrest : ∀ b ∈ q.drop (posNode + 1), b.length = sz :=
    fun b hb => hsize b (List.mem_of_mem_drop hb)
  have hpre : (q.take posNode).flatten.length = posNode * sz := by
    rw [flatten_length_of_size (sz := sz) _ (fun b hb => hsize b (List.mem_of_mem_take hb)),
      List.length_take]
    congr 1; omega
  have hfl : q.flatten = (q.take posNode).flatten ++
      (q[posNode] :: q.drop (posNode + 1)).flatten := by
    conv => lhs; rw [hq]
    rw [List.flatten_append]
  have hlen : q.flatten.length = posNode * sz +
      (q[posNode] :: q.drop (posNode + 1)).flatten.length := by
    rw [hfl, List.length_append, hpre]
  have hdropP : ∀ m, q.flatten.drop (posNode * sz + m)
      = (q[posNode] :: q.drop (posNode + 1)).flatten.drop m := by
    intro m
    rw [hfl, List.drop_append, List.drop_of_length_le (by rw [hpre]; omega), List.nil_append, hpre]
    congr 1; omega
  have hget : q[posNode]? = some q[posNode] := List.getElem?_eq_getElem hnode
  cases op with
  | read n =>
    have hboth := readLoop_spec sz hsz (q.drop (posNode + 1)) q[posNode] posNode posOff n
      hcur hrest hin
    simp only [Flat.step]
    by_cases hc : n = 0 ∨ posNode * sz + posOff + n < q.flatten.length
    · rw [if_pos hc]
      obtain ⟨k, o, he, ho, hk, hko⟩ := hboth.1 (by clear hboth; omega)
      clear hboth
      refine ⟨q, ⟨posNode + k, posNode + k, o⟩, ?_, ?_⟩
      · simp only [step, read, hget, he, if_true]
        rw [hdropP]
      · refine ⟨hsize, rfl, ho, ?_, rfl, ?_⟩
        · simp only [List.length_drop] at hk; show posNode + k < q.length; omega
        · show posNode * sz + posOff + n = (posNode + k) * sz + o
          rw [Nat.add_mul]; omega
    · rw [if_neg hc]
      have := hboth.2 (by clear hboth; omega)
      generalize hr : readLoop q[posNode] (q.drop (posNode + 1)) posNode posOff n = r at this
      obtain ⟨r1, r2, r3⟩ := r
      simp only at this
      subst this
      simp only [step, read, hget, hr, if_true]
  | skip n =>
    have hboth := skipLoop_spec sz (q.drop (posNode + 1)) q[posNode] posNode posOff n
      hcur hrest (by omega)
    simp only [Flat.step]
    by_cases hc : posNode * sz + posOff + n < q.flatten.length
    · rw [if_pos hc]
      obtain ⟨k, o, he, ho, hk, hko⟩ := hboth.1 (by clear hboth; omega)
      clear hboth
      refine ⟨q, ⟨posNode + k, posNode + k, o⟩, ?_, ?_⟩
      · simp only [step, skip, hget, he, if_true]
      · refine ⟨hsize, rfl, ho, ?_, rfl, ?_⟩
        · simp only [List.length_drop] at hk; show posNode + k < q.length; omega
        · show posNode * sz + posOff + n = (posNode + k) * sz + o
          rw [Nat.add_mul]; omega
    · rw [if_neg hc]
      have := hboth.2 (by clear hboth; omega)
      generalize hr : skipLoop q[posNode] (q.drop (posNode + 1)) posNode posOff n = r at this
      obtain ⟨r1, r2, r3⟩ := r
      simp only at this
      subst this
      simp only [step, skip, hget, hr, if_true]
  | write d =>
    have hboth := writeLoop_spec sz hsz (q.drop (posNode + 1)) q[posNode] posNode posOff d
      hcur hrest hin
    simp only [Flat.step]
    by_cases hc : d.length = 0 ∨ posNode * sz + posOff + d.length < q.flatten.length
    · rw [if_pos hc]
      obtain ⟨k, o, blocks, he, ho, hk, hko, hbl, hbs, hbf⟩ := hboth.1 (by clear hboth; omega)
      clear hboth
      refine ⟨q.take posNode ++ blocks, ⟨posNode + k, posNode + k, o⟩, ?_, ?_⟩
      · simp only [step, write, hget, he, if_true]
      · refine ⟨?_, rfl, ho, ?_, ?_, ?_⟩
        · intro b hb
          rcases List.mem_append.1 hb with h | h
          · exact hsize b (List.mem_of_mem_take h)
          · exact hbs b h
        · show posNode + k < (q.take posNode ++ blocks).length
          simp only [List.length_append, List.length_take, hbl, List.length_cons,
            List.length_drop] at hk ⊢
          omega
        · show q.flatten.take (posNode * sz + posOff) ++ d ++
            q.flatten.drop (posNode * sz + posOff + d.length) = (q.take posNode ++ blocks).flatten
          rw [List.flatten_append, hbf, Nat.add_assoc, hdropP]
          have : q.flatten.take (posNode * sz + posOff) = (q.take posNode).flatten ++
              (q[posNode] :: q.drop (posNode + 1)).flatten.take posOff := by
            rw [hfl, List.take_append, List.take_of_length_le (by rw [hpre]; omega), hpre]
            congr 2; omega
          rw [this]; simp only [List.append_assoc]
        · show posNode * sz + posOff + d.length = (posNode + k) * sz + o
          rw [Nat.add_mul]; omega
    · rw [if_neg hc]
      have := hboth.2 (by clear hboth; omega)
      generalize hr : writeLoop q[posNode] (q.drop (posNode + 1)) posNode posOff d = r at this
      obtain ⟨r1, r2, r3, r4⟩ := r
      simp only at this
      subst this
      simp only [step, write, hget, hr, if_true]

/-- C03: for any sequence of read, skip and overwrite requests, with any sizes and any buffer
size, the reader over a list of buffers gives the same replies as a cursor in the flat content,
and ends in the corresponding position, strictly inside a buffer. No undefined behaviour. -/
theorem run_refines {α : Type} {sz : Nat} (hsz : 0 < sz) {q : List (List α)} {s : Stream}
    {f : Flat α} (h : Sim sz q s f) (ops : List (Op α)) :
    match f.run ops with
    | (rs, none) => run q s ops = .ok (rs, none)
    | (rs, some f') => ∃ q' s', run q s ops = .ok (rs, some (q', s')) ∧ Sim sz q' s' f' := by
  induction ops generalizing q s f with
  | nil => exact ⟨q, s, rfl, h⟩
  | cons op ops ih =>
    have hstep := step_refines hsz h op
    simp only [Flat.run, run]
    rcases hfs : f.step op with ⟨r, _ | f'⟩
    · rw [hfs] at hstep
      simp only at hstep ⊢
      rw [hstep]
    · rw [hfs] at hstep
      obtain ⟨q', s', he, hsim⟩ := hstep
      have := ih hsim
      simp only
      rcases hfr : f'.run ops with ⟨rs, _ | f''⟩
      · rw [hfr] at this
        simp only at this
        simp [he, this]
      · rw [hfr] at this
        obtain ⟨q'', s'', he2, hsim2⟩ := this
        exact ⟨q'', s'', by simp [he, he2], hsim2⟩

/-- A stream opened at the head of a non-empty queue starts at position 0. -/
theorem initHead_sim {α : Type} {sz : Nat} (hsz : 0 < sz) {q : List (List α)}
    (hq : ∀ b ∈ q, b.length = sz) (hne : q ≠ []) :
    ∃ s, initHead q = .ok s ∧ Sim sz q s { content := q.flatten, pos := 0 } := by
  cases q with
  | nil => exact absurd rfl hne
  | cons b q => exact ⟨_, rfl, hq, rfl, hsz, by simp, rfl, by simp⟩

/-- C03, plain reading: reading sizes `ns` from the head returns consecutive pieces of the
content, when one more byte of space follows them. -/
theorem reads_from_head {α : Type} {sz : Nat} (hsz : 0 < sz) {q : List (List α)}
    (hq : ∀ b ∈ q, b.length = sz) (ns : List Nat) (hns : ns.sum < q.flatten.length) :
    ∃ s rs e, initHead q = .ok s ∧ run q s (ns.map .read) = .ok (rs, some e) ∧
      (rs.flatMap fun r => match r with | .bytes l => l | _ => []) = q.flatten.take ns.sum := by
  have hne : q ≠ [] := by intro h; subst h; simp at hns
  obtain ⟨s, hs, hsim⟩ := initHead_sim hsz hq hne
  have hrun := run_refines hsz hsim (ns.map .read)
  have key : ∀ (ns : List Nat) (f : Flat α), f.pos + ns.sum < f.content.length →
      ∃ rs f', f.run (ns.map .read) = (rs, some f') ∧
        (rs.flatMap fun r => match r with | .bytes l => l | _ => [])
          = (f.content.drop f.pos).take ns.sum := by
    intro ns
    induction ns with
    | nil => intro f _; exact ⟨[], f, rfl, by simp⟩
    | cons n ns ih =>
      intro f hf
      simp only [List.sum_cons] at hf
      obtain ⟨rs, f', he, hfl⟩ := ih { f with pos := f.pos + n } (by simp; omega)
      refine ⟨.bytes ((f.content.drop f.pos).take n) :: rs, f', ?_, ?_⟩
      · simp only [List.map_cons, Flat.run, Flat.step]
        rw [if_pos (by omega)]
        simp only [he]
      · simp only [List.flatMap_cons, hfl, List.sum_cons]
        rw [List.take_add, List.drop_drop]
  obtain ⟨rs, f', he, hfl⟩ := key ns { content := q.flatten, pos := 0 } (by simpa using hns)
  rw [he] at hrun
  obtain ⟨q', s', hr, _⟩ := hrun
  exact ⟨s, rs, (q', s'), hs, hr, by simpa using hfl⟩

example : run [[1, 2, 3], [4, 5, 6], [0, 0, 0]] ⟨0, 0, 0⟩
    [.read 2, .skip 1, .read 2, .write [9], .read 1]
    = .ok ([.bytes [1, 2], .done, .bytes [4, 5], .done, .bytes [0]],
        some ([[1, 2, 3], [4, 5, 9], [0, 0, 0]], ⟨2, 2, 1⟩)) := by decide

example : Sim 3 [[1, 2, 3], [4, 5, 6], [0, 0, 0]] ⟨0, 0, 0⟩
    { content := [1, 2, 3, 4, 5, 6, 0, 0, 0], pos := 0 } :=
  ⟨by decide, rfl, by decide, by decide, rfl, rfl⟩

/-- Reading exactly up to the end of the last buffer fails, as the code comment says. -/
example : run [[1, 2, 3]] ⟨0, 0, 0⟩ [.read 3] = .ok ([.failed], none) := by decide

end Verif.BufStream
