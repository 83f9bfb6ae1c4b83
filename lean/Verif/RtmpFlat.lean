import Verif.Rtmp

/-!
# RTMP: the reader as a function of the bytes

Used in the proofs: a machine without memory that takes one chunk from a list of bytes.
-/

namespace Verif.Rtmp

structure AStrm where
  h : Hdr := {}
  frags : List (List UInt8) := []

structure AM where
  streams : List AStrm
  chunk : Nat
  type3 : T3
  lastTs : Nat := 0
  log : List Msg := []

/-- `copyBuf` on lists. -/
def cutBuf : Nat → Nat → List (List UInt8) → List UInt8 → List UInt8 → List (List UInt8) × List UInt8
  | 0, _, done, lo, _ => (done, lo)
  | fuel + 1, n, done, lo, bs =>
    if bs.length ≤ n - lo.length then (done, lo ++ bs)
    else cutBuf fuel n (done ++ [lo ++ bs.take (n - lo.length)]) [] (bs.drop (n - lo.length))

/-- `copyChain` on lists. -/
def cutChain (n : Nat) (done : List (List UInt8)) (lo : List UInt8) : List (List UInt8) → List (List UInt8)
  | [] => done ++ [lo]
  | bs :: r => cutChain n (cutBuf (bs.length + 2) n done lo bs).1 (cutBuf (bs.length + 2) n done lo bs).2 r

def recut (n : Nat) (fs : List (List UInt8)) : List (List UInt8) := if fs = [] then [] else cutChain n [] [] fs

def AM.setChunk (A : AM) (size : Nat) : AM :=
  if size < 1 ∨ size > maxChunk then A
  else { A with chunk := size, streams := A.streams.map fun st => { st with frags := recut (size + maxHeader) st.frags } }

def AM.setChunks (A : AM) : List Nat → AM
  | [] => A
  | n :: ns => (A.setChunk n).setChunks ns

/-- More bytes are needed, the connection ends, or a result. -/
inductive Out (α : Type) where
  | more
  | bad
  | ok (a : α)

/-- The header of the chunk at the start of `bs`: the machine after it, the chunk stream, and the size of the header. -/
def AM.head (g : Cfg) (A : AM) (bs : List UInt8) : Out (AM × Nat × Nat) :=
  match basicHdr bs with
  | none => .more
  | some (fmt, c, n) =>
    if c ≥ g.maxStreams then .bad
    else
      match A.streams[c]? with
      | none => .bad
      | some st =>
        match header fmt n st.h A.type3 A.lastTs (bs.drop n) with
        | (_, none) => .more
        | (_, some hd) =>
          if hd.h.mlen > g.maxMessage then .bad
          else .ok ({ A with streams := A.streams.set c { st with h := hd.h }, type3 := hd.type3, lastTs := hd.lastTs }, c, hd.size)

/-- The data of a chunk: the machine after it, and the size. -/
def AM.body (H : Handler) (A : AM) (c : Nat) (bs : List UInt8) : Out (AM × Nat) :=
  match A.streams[c]? with
  | none => .bad
  | some st =>
    if bs.length < min (left st.h) A.chunk then .more
    else if left st.h > A.chunk then
      .ok ({ A with streams := A.streams.set c ⟨{ st.h with len := (st.h.len + A.chunk) % 2 ^ 32 }, st.frags ++ [bs.take A.chunk]⟩ }, A.chunk)
    else
      let h := { st.h with len := 0, timestamp := (st.h.timestamp + st.h.dtime) % 2 ^ 32 }
      let log := A.log ++ [⟨c, h.timestamp, h.mlen, h.type, h.msid, st.frags ++ [bs.take (left st.h)]⟩]
      match H log with
      | none => .bad
      | some sizes => .ok ({ A with log, streams := A.streams.set c ⟨h, []⟩ }.setChunks sizes, left st.h)

/-- One chunk. -/
def AM.step (g : Cfg) (H : Handler) (A : AM) (bs : List UInt8) : Out (AM × Nat) :=
  match A.head g bs with
  | .more => .more
  | .bad => .bad
  | .ok (A', c, n) =>
    match A'.body H c (bs.drop n) with
    | .more => .more
    | .bad => .bad
    | .ok (A'', k) => .ok (A'', n + k)

/-! ## The header -/

theorem basicHdr_size {bs : List UInt8} {fmt c n : Nat} (h : basicHdr bs = some (fmt, c, n)) :
    0 < n ∧ n ≤ 3 ∧ n ≤ bs.length ∧ 2 ≤ c ∧ fmt ≤ 3 := by
  cases bs with
  | nil => simp [basicHdr] at h
  | cons b r =>
    have hb := b.toNat_lt
    simp only [basicHdr] at h
    split at h
    · cases r with
      | nil => simp at h
      | cons x r =>
        simp at h
        obtain ⟨h1, h2, h3⟩ := h
        simp only [List.length_cons]
        omega
    · split at h
      · match r, h with
        | x :: y :: r, h =>
          simp at h
          obtain ⟨h1, h2, h3⟩ := h
          simp only [List.length_cons]
          omega
      · simp at h
        obtain ⟨h1, h2, h3⟩ := h
        simp only [List.length_cons]
        omega

theorem basicHdr_app {bs : List UInt8} {x : Nat × Nat × Nat} (h : basicHdr bs = some x) (y : List UInt8) : basicHdr (bs ++ y) = some x := by
  cases bs with
  | nil => simp [basicHdr] at h
  | cons b r =>
    simp only [List.cons_append, basicHdr] at h ⊢
    split
    · rename_i hb
      rw [if_pos hb] at h
      cases r with
      | nil => simp at h
      | cons c r => exact h
    · rename_i hb
      rw [if_neg hb] at h
      split
      · rename_i hb1
        rw [if_pos hb1] at h
        match r, h with
        | c :: d :: r, h => exact h
      · rename_i hb1
        rw [if_neg hb1] at h
        exact h

theorem basicHdr_enough {bs : List UInt8} (h : 3 ≤ bs.length) : ∃ x, basicHdr bs = some x := by
  match bs, h with
  | b :: c :: d :: r, _ =>
    simp only [basicHdr]
    split
    · exact ⟨_, rfl⟩
    · split <;> exact ⟨_, rfl⟩

theorem msgHdr_again (fmt : Nat) (h : Hdr) (bs y : List UInt8) : msgHdr fmt (msgHdr fmt h bs).1 (bs ++ y) = msgHdr fmt h (bs ++ y) := by
  by_cases h2 : fmt ≤ 2
  · match bs with
    | [] => simp [msgHdr, h2]
    | [_] => simp [msgHdr, h2]
    | [_, _] => simp [msgHdr, h2]
    | a :: b :: c :: r =>
      by_cases h1 : fmt ≤ 1
      · match r with
        | [] => simp [msgHdr, h2, h1]
        | [_] => simp [msgHdr, h2, h1]
        | [_, _] => simp [msgHdr, h2, h1]
        | [_, _, _] => simp [msgHdr, h2, h1]
        | d :: e :: f :: t :: r =>
          by_cases h0 : fmt = 0
          · match r with
            | [] => simp [msgHdr, h0]
            | [_] => simp [msgHdr, h0]
            | [_, _] => simp [msgHdr, h0]
            | [_, _, _] => simp [msgHdr, h0]
            | i :: j :: k :: l :: r => simp [msgHdr, h0]
          · simp [msgHdr, h2, h1, h0]
      · simp [msgHdr, h2, h1]
  · simp [msgHdr, h2]

theorem msgHdr_app {fmt : Nat} {h h' : Hdr} {bs : List UInt8} {st : Stamp} (e : msgHdr fmt h bs = (h', some st)) (y : List UInt8) :
    msgHdr fmt h (bs ++ y) = (h', some st) := by
  by_cases h2 : fmt ≤ 2
  · simp only [msgHdr, h2, if_true] at e ⊢
    match bs, e with
    | a :: b :: c :: r, e =>
      simp only [List.cons_append] at e ⊢
      split
      · rename_i h1
        rw [if_pos h1] at e
        match r, e with
        | d :: e' :: f :: t :: r, e =>
          simp only [List.cons_append] at e ⊢
          split
          · rename_i h0
            rw [if_pos h0] at e
            match r, e with
            | i :: j :: k :: l :: r, e => exact e
          · rename_i h0
            rw [if_neg h0] at e
            exact e
      · rename_i h1
        rw [if_neg h1] at e
        exact e
  · simp only [msgHdr, h2, if_false] at e ⊢
    exact e

theorem msgHdr_size {fmt : Nat} {h h' : Hdr} {bs : List UInt8} {st : Stamp} (e : msgHdr fmt h bs = (h', some st)) :
    st.size ≤ bs.length ∧ st.size ≤ 11 := by
  by_cases h2 : fmt ≤ 2
  · simp only [msgHdr, h2, if_true] at e
    match bs, e with
    | a :: b :: c :: r, e =>
      simp only at e
      split at e
      · match r, e with
        | d :: e' :: f :: t :: r, e =>
          simp only at e
          split at e
          · match r, e with
            | i :: j :: k :: l :: r, e =>
              simp only [Prod.mk.injEq, Option.some.injEq] at e
              rw [← e.2]
              simp
          · simp only [Prod.mk.injEq, Option.some.injEq] at e
            rw [← e.2]
            simp
      · simp only [Prod.mk.injEq, Option.some.injEq] at e
        rw [← e.2]
        simp
  · simp only [msgHdr, h2, if_false, Prod.mk.injEq, Option.some.injEq] at e
    rw [← e.2]
    simp

theorem msgHdr_enough (fmt : Nat) (h : Hdr) {bs : List UInt8} (hb : 11 ≤ bs.length) : ∃ h' st, msgHdr fmt h bs = (h', some st) := by
  match bs, hb with
  | a :: b :: c :: d :: e :: f :: t :: i :: j :: k :: l :: r, _ =>
    simp only [msgHdr]
    split
    · split
      · split
        · exact ⟨_, _, rfl⟩
        · exact ⟨_, _, rfl⟩
      · exact ⟨_, _, rfl⟩
    · exact ⟨_, _, rfl⟩

theorem msgHdr_keeps (fmt : Nat) (h : Hdr) (bs : List UInt8) : (msgHdr fmt h bs).1.len = h.len ∧ (msgHdr fmt h bs).1.timestamp = h.timestamp ∧
    (msgHdr fmt h bs).1.dtime = h.dtime ∧ (msgHdr fmt h bs).1.ext = h.ext := by
  unfold msgHdr
  split
  · split
    · split
      · split
        · split
          · split <;> exact ⟨rfl, rfl, rfl, rfl⟩
          · exact ⟨rfl, rfl, rfl, rfl⟩
        · exact ⟨rfl, rfl, rfl, rfl⟩
      · exact ⟨rfl, rfl, rfl, rfl⟩
    · exact ⟨rfl, rfl, rfl, rfl⟩
  · exact ⟨rfl, rfl, rfl, rfl⟩

theorem extHdr_app {fmt : Nat} {h : Hdr} {type3 : T3} {lastTs : Nat} {st : Stamp} {bs : List UInt8} {x : Nat × Nat × T3 × Bool}
    (e : extHdr fmt h type3 lastTs st bs = some x) (y : List UInt8) : extHdr fmt h type3 lastTs st (bs ++ y) = some x := by
  unfold extHdr at e ⊢
  split
  · rename_i he
    rw [if_pos he] at e
    match bs, e with
    | a :: b :: c :: d :: r, e => exact e
  · rename_i he
    rw [if_neg he] at e
    exact e

theorem extHdr_size {fmt : Nat} {h : Hdr} {type3 : T3} {lastTs : Nat} {st : Stamp} {bs : List UInt8} {ts k : Nat} {t3 : T3} {ex : Bool}
    (e : extHdr fmt h type3 lastTs st bs = some (ts, k, t3, ex)) : k ≤ bs.length ∧ k ≤ 4 := by
  unfold extHdr at e
  split at e
  · match bs, e with
    | a :: b :: c :: d :: r, e =>
      simp only at e
      split at e
      · split at e
        · simp at e; omega
        · simp at e; simp; omega
      · simp at e; simp; omega
  · simp at e; omega

theorem extHdr_enough (fmt : Nat) (h : Hdr) (type3 : T3) (lastTs : Nat) (st : Stamp) {bs : List UInt8} (hb : 4 ≤ bs.length) :
    ∃ x, extHdr fmt h type3 lastTs st bs = some x := by
  match bs, hb with
  | a :: b :: c :: d :: r, _ =>
    unfold extHdr
    split
    · simp only
      split
      · split <;> exact ⟨_, rfl⟩
      · exact ⟨_, rfl⟩
    · exact ⟨_, rfl⟩

theorem header_some {fmt n : Nat} {h h' : Hdr} {type3 : T3} {lastTs : Nat} {bs : List UInt8} {hd : Head}
    (e : header fmt n h type3 lastTs bs = (h', some hd)) : ∃ st ts k t3 ex, msgHdr fmt h bs = (h', some st) ∧
      extHdr fmt h' type3 lastTs st (bs.drop st.size) = some (ts, k, t3, ex) ∧
      hd = start fmt { h' with ext := ex } st.ext t3 lastTs ts (n + st.size + k) := by
  unfold header at e
  split at e
  · simp at e
  · rename_i h1 st e1
    split at e
    · simp at e
    · rename_i ts k t3 ex e2
      simp only [Prod.mk.injEq, Option.some.injEq] at e
      obtain ⟨rfl, rfl⟩ := e
      exact ⟨st, ts, k, t3, ex, e1, e2, rfl⟩

theorem start_size (fmt : Nat) (h : Hdr) (ext : Bool) (type3 : T3) (lastTs ts size : Nat) : (start fmt h ext type3 lastTs ts size).size = size := by
  unfold start
  split
  · split <;> rfl
  · rfl

theorem header_size {fmt n : Nat} {h h' : Hdr} {type3 : T3} {lastTs : Nat} {bs : List UInt8} {hd : Head}
    (e : header fmt n h type3 lastTs bs = (h', some hd)) : n ≤ hd.size ∧ hd.size ≤ n + bs.length ∧ hd.size ≤ n + 15 := by
  obtain ⟨st, ts, k, t3, ex, e1, e2, rfl⟩ := header_some e
  rw [start_size]
  have h1 := msgHdr_size e1
  have h2 := extHdr_size e2
  rw [List.length_drop] at h2
  omega

theorem header_app {fmt n : Nat} {h h' : Hdr} {type3 : T3} {lastTs : Nat} {bs : List UInt8} {hd : Head}
    (e : header fmt n h type3 lastTs bs = (h', some hd)) (y : List UInt8) : header fmt n h type3 lastTs (bs ++ y) = (h', some hd) := by
  obtain ⟨st, ts, k, t3, ex, e1, e2, rfl⟩ := header_some e
  have h1 := msgHdr_size e1
  unfold header
  rw [msgHdr_app e1 y]
  simp only
  rw [List.drop_append_of_le_length h1.1, extHdr_app e2 y]

theorem header_none {fmt n : Nat} {h h' : Hdr} {type3 : T3} {lastTs : Nat} {bs : List UInt8}
    (e : header fmt n h type3 lastTs bs = (h', none)) : h' = (msgHdr fmt h bs).1 := by
  unfold header at e
  split at e
  · rename_i h1 e1
    rw [e1]
    simp at e
    exact e.symm
  · rename_i h1 st e1
    split at e
    · rw [e1]
      simp at e
      exact e.symm
    · simp at e

theorem header_again {fmt n : Nat} {h h' : Hdr} {type3 : T3} {lastTs : Nat} {bs : List UInt8}
    (e : header fmt n h type3 lastTs bs = (h', none)) (y : List UInt8) :
    header fmt n h' type3 lastTs (bs ++ y) = header fmt n h type3 lastTs (bs ++ y) := by
  have := header_none e
  unfold header
  rw [this, msgHdr_again]

theorem header_enough (fmt n : Nat) (h : Hdr) (type3 : T3) (lastTs : Nat) {bs : List UInt8} (hb : 15 ≤ bs.length) :
    ∃ h' hd, header fmt n h type3 lastTs bs = (h', some hd) := by
  obtain ⟨h', st, e1⟩ := msgHdr_enough fmt h (bs := bs) (by omega)
  have h1 := msgHdr_size e1
  obtain ⟨⟨ts, k, t3, ex⟩, e2⟩ := extHdr_enough fmt h' type3 lastTs st (bs := bs.drop st.size) (by rw [List.length_drop]; omega)
  refine ⟨h', start fmt { h' with ext := ex } st.ext t3 lastTs ts (n + st.size + k), ?_⟩
  unfold header
  rw [e1]
  simp only
  rw [e2]

/-! ## More bytes do not change what was read -/

theorem head_ok {g : Cfg} {A A' : AM} {bs : List UInt8} {c n : Nat} (h : A.head g bs = .ok (A', c, n)) :
    0 < n ∧ n ≤ bs.length ∧ n ≤ maxHeader ∧ A'.chunk = A.chunk ∧ A'.log = A.log ∧ c < g.maxStreams := by
  unfold AM.head at h
  split at h
  · cases h
  · rename_i fmt c' n' e
    have hs := basicHdr_size e
    split at h
    · cases h
    · split at h
      · cases h
      · split at h
        · cases h
        · rename_i e2
          split at h
          · cases h
          · cases h
            have h2 := header_size e2
            rw [List.length_drop] at h2
            refine ⟨by omega, by omega, by unfold maxHeader; omega, rfl, rfl, by omega⟩

theorem head_app {g : Cfg} {A A' : AM} {bs : List UInt8} {c n : Nat} (h : A.head g bs = .ok (A', c, n)) (y : List UInt8) :
    A.head g (bs ++ y) = .ok (A', c, n) := by
  unfold AM.head at h ⊢
  split at h
  · cases h
  · rename_i fmt c' n' e
    have hs := basicHdr_size e
    rw [basicHdr_app e y]
    simp only
    split at h
    · cases h
    · rename_i hc
      rw [if_neg hc]
      split at h
      · cases h
      · rename_i st hst
        split at h
        · cases h
        · rename_i e2
          rw [List.drop_append_of_le_length hs.2.2.1, header_app e2 y]
          exact h

theorem head_bad {g : Cfg} {A : AM} {bs : List UInt8} (h : A.head g bs = .bad) (y : List UInt8) : A.head g (bs ++ y) = .bad := by
  unfold AM.head at h ⊢
  split at h
  · cases h
  · rename_i fmt c' n' e
    have hs := basicHdr_size e
    rw [basicHdr_app e y]
    simp only
    split at h
    · rename_i hc
      rw [if_pos hc]
    · rename_i hc
      rw [if_neg hc]
      split at h
      · rfl
      · rename_i st hst
        split at h
        · cases h
        · rename_i e2
          rw [List.drop_append_of_le_length hs.2.2.1, header_app e2 y]
          exact h

theorem head_enough {g : Cfg} {A : AM} {bs : List UInt8} (h : maxHeader ≤ bs.length) : A.head g bs ≠ .more := by
  unfold maxHeader at h
  unfold AM.head
  obtain ⟨⟨fmt, c, n⟩, e⟩ := basicHdr_enough (bs := bs) (by omega)
  have hs := basicHdr_size e
  rw [e]
  simp only
  split
  · simp
  · split
    · simp
    · rename_i st _
      obtain ⟨h', hd, e2⟩ := header_enough fmt n st.h A.type3 A.lastTs (bs := bs.drop n) (by rw [List.length_drop]; omega)
      rw [e2]
      simp only
      split <;> simp

theorem body_ok {H : Handler} {A A' : AM} {bs : List UInt8} {c k : Nat} (h : A.body H c bs = .ok (A', k)) : k ≤ bs.length := by
  unfold AM.body at h
  split at h
  · cases h
  · split at h
    · cases h
    · split at h
      · cases h; omega
      · simp only at h
        split at h
        · cases h
        · cases h; omega

theorem body_app {H : Handler} {A : AM} {bs : List UInt8} {c : Nat} (h : A.body H c bs ≠ .more) (y : List UInt8) :
    A.body H c (bs ++ y) = A.body H c bs := by
  unfold AM.body at h ⊢
  split
  · rfl
  · rename_i st hst
    rw [hst] at h
    simp only at h
    by_cases hl : bs.length < min (left st.h) A.chunk
    · rw [if_pos hl] at h
      exact absurd rfl h
    · rw [if_neg hl, if_neg (by rw [List.length_append]; omega)]
      split
      · rw [List.take_append_of_le_length (by omega)]
      · rw [List.take_append_of_le_length (by omega)]

theorem body_enough {H : Handler} {A : AM} {bs : List UInt8} {c : Nat} (h : A.chunk ≤ bs.length) : A.body H c bs ≠ .more := by
  unfold AM.body
  split
  · simp
  · split
    · omega
    · split
      · simp
      · simp only
        split <;> simp

theorem step_app {g : Cfg} {H : Handler} {A : AM} {bs : List UInt8} (h : A.step g H bs ≠ .more) (y : List UInt8) :
    A.step g H (bs ++ y) = A.step g H bs := by
  unfold AM.step at h ⊢
  cases e : A.head g bs with
  | more => rw [e] at h; exact absurd rfl h
  | bad => rw [head_bad e y]
  | ok x =>
    obtain ⟨A', c, n⟩ := x
    have hn := head_ok e
    rw [head_app e y]
    rw [e] at h
    simp only at h ⊢
    rw [List.drop_append_of_le_length hn.2.1]
    have : A'.body H c (bs.drop n) ≠ .more := by
      intro e2
      rw [e2] at h
      exact h rfl
    rw [body_app this y]

theorem step_size {g : Cfg} {H : Handler} {A A' : AM} {bs : List UInt8} {n : Nat} (h : A.step g H bs = .ok (A', n)) : 0 < n ∧ n ≤ bs.length := by
  unfold AM.step at h
  split at h
  · cases h
  · cases h
  · rename_i A1 c m e
    have hn := head_ok e
    split at h
    · cases h
    · cases h
    · rename_i A2 k e2
      have hk := body_ok e2
      rw [List.length_drop] at hk
      cases h
      omega

theorem step_enough {g : Cfg} {H : Handler} {A : AM} {bs : List UInt8} (h : A.chunk + maxHeader ≤ bs.length) : A.step g H bs ≠ .more := by
  unfold AM.step
  split
  · rename_i e
    exact absurd e (head_enough (by omega))
  · simp
  · rename_i A1 c m e
    have hn := head_ok e
    split
    · rename_i e2
      refine absurd e2 (body_enough ?_)
      rw [List.length_drop, hn.2.2.2.1]
      omega
    · simp
    · simp

end Verif.Rtmp
