import Verif.RtmpFlat

/-!
# RTMP: buffers, and the copies at a change of the chunk size
-/

namespace Verif.Rtmp

theorem rd_ok {s : Sess} {b off n : Nat} {m : Buf} (hm : s.heap[b]? = some m) (hp : m.pool ∈ s.live) (hl : off + n ≤ m.mem.length) :
    s.rd b off n = .ok ((m.mem.drop off).take n) := by
  unfold Sess.rd
  rw [hm]
  simp only
  rw [if_pos ⟨hp, hl⟩]

theorem rd_inv {s : Sess} {b off n : Nat} {bs : List UInt8} (h : s.rd b off n = .ok bs) :
    ∃ m, s.heap[b]? = some m ∧ m.pool ∈ s.live ∧ off + n ≤ m.mem.length ∧ bs = (m.mem.drop off).take n := by
  unfold Sess.rd at h
  split at h
  · cases h
  · rename_i m hm
    split at h
    · rename_i hc
      cases h
      exact ⟨m, hm, hc.1, hc.2, rfl⟩
    · cases h

theorem rd_len {s : Sess} {b off n : Nat} {bs : List UInt8} (h : s.rd b off n = .ok bs) : bs.length = n := by
  obtain ⟨m, _, _, hl, rfl⟩ := rd_inv h
  rw [List.length_take, List.length_drop]
  omega

/-- The same bytes are read in another state where the buffer is the same. -/
theorem rd_congr {s s' : Sess} {b off n : Nat} {bs : List UInt8} (h : s.rd b off n = .ok bs) (hb : s'.heap[b]? = s.heap[b]?)
    (hl : ∀ m, s.heap[b]? = some m → m.pool ∈ s.live → m.pool ∈ s'.live) : s'.rd b off n = .ok bs := by
  obtain ⟨m, hm, hp, hn, rfl⟩ := rd_inv h
  exact rd_ok (hb.trans hm) (hl m hm hp) hn

/-- A part of what can be read. -/
theorem rd_part {s : Sess} {b off n : Nat} {bs : List UInt8} (h : s.rd b off n = .ok bs) {k j : Nat} (hk : k + j ≤ n) :
    s.rd b (off + k) j = .ok ((bs.drop k).take j) := by
  obtain ⟨m, hm, hp, hn, rfl⟩ := rd_inv h
  rw [rd_ok hm hp (by omega)]
  congr 1
  rw [List.drop_take, List.take_take, Nat.min_eq_left (by omega), List.drop_drop]

theorem rdAll_congr {s s' : Sess} : ∀ {ls : List Link} {ds : List (List UInt8)}, s.rdAll ls = .ok ds →
    (∀ l ∈ ls, s'.heap[l.buf]? = s.heap[l.buf]? ∧ ∀ m, s.heap[l.buf]? = some m → m.pool ∈ s.live → m.pool ∈ s'.live) → s'.rdAll ls = .ok ds := by
  intro ls
  induction ls with
  | nil => intro ds h _; exact h
  | cons l ls ih =>
    intro ds h hc
    unfold Sess.rdAll at h ⊢
    cases e : s.rd l.buf l.pos (l.last - l.pos) with
    | ok d =>
      rw [e] at h
      cases e2 : s.rdAll ls with
      | ok ds' =>
        rw [e2] at h
        have h1 := hc l List.mem_cons_self
        rw [rd_congr e h1.1 h1.2, Res.bind_ok, ih e2 fun l hl => hc l (List.mem_cons_of_mem _ hl)]
        exact h
      | err => rw [e2] at h; cases h
      | ub => rw [e2] at h; cases h
    | err => rw [e] at h; cases h
    | ub => rw [e] at h; cases h

theorem rdAll_cons {s : Sess} {l : Link} {ls : List Link} {ds : List (List UInt8)} (h : s.rdAll (l :: ls) = .ok ds) :
    ∃ d ds', ds = d :: ds' ∧ s.rd l.buf l.pos (l.last - l.pos) = .ok d ∧ s.rdAll ls = .ok ds' := by
  unfold Sess.rdAll at h
  cases e : s.rd l.buf l.pos (l.last - l.pos) with
  | ok d =>
    rw [e] at h
    cases e2 : s.rdAll ls with
    | ok ds' =>
      rw [e2] at h
      cases h
      exact ⟨d, ds', rfl, rfl, rfl⟩
    | err => rw [e2] at h; cases h
    | ub => rw [e2] at h; cases h
  | err => rw [e] at h; cases h
  | ub => rw [e] at h; cases h

theorem rdAll_push {s : Sess} : ∀ {ls : List Link} {ds : List (List UInt8)} {l : Link} {d : List UInt8}, s.rdAll ls = .ok ds →
    s.rd l.buf l.pos (l.last - l.pos) = .ok d → s.rdAll (ls ++ [l]) = .ok (ds ++ [d]) := by
  intro ls
  induction ls with
  | nil =>
    intro ds l d h1 h2
    cases h1
    simp [Sess.rdAll, h2]
  | cons x ls ih =>
    intro ds l d h1 h2
    obtain ⟨d', ds', rfl, e1, e2⟩ := rdAll_cons h1
    rw [List.cons_append]
    unfold Sess.rdAll
    rw [e1, Res.bind_ok, ih e2 h2]
    rfl

/-- A write changes one buffer. -/
structure Wrote (b : Nat) (s s' : Sess) : Prop where
  eq : s' = { s with heap := s'.heap }
  len : s'.heap.length = s.heap.length
  other : ∀ x : Nat, x ≠ b → s'.heap[x]? = s.heap[x]?
  same : ∀ (x : Nat) (m' : Buf), s'.heap[x]? = some m' → ∃ m : Buf, s.heap[x]? = some m ∧ m'.pool = m.pool ∧ m'.mem.length = m.mem.length
  back : ∀ (x : Nat) (m : Buf), s.heap[x]? = some m → ∃ m' : Buf, s'.heap[x]? = some m' ∧ m'.pool = m.pool ∧ m'.mem.length = m.mem.length

theorem wr_ok {s : Sess} {b off : Nat} {bs : List UInt8} {m : Buf} (hm : s.heap[b]? = some m) (hp : m.pool ∈ s.live)
    (hl : off + bs.length ≤ m.mem.length) :
    ∃ s', s.wr b off bs = .ok s' ∧ Wrote b s s' ∧ s'.rd b 0 (off + bs.length) = .ok (m.mem.take off ++ bs) := by
  have hlt : b < s.heap.length := by
    obtain ⟨h, _⟩ := List.getElem?_eq_some_iff.1 hm
    exact h
  have hlen : (m.mem.take off ++ bs ++ m.mem.drop (off + bs.length)).length = m.mem.length := by
    simp only [List.length_append, List.length_take, List.length_drop]
    omega
  refine ⟨{ s with heap := s.heap.set b { m with mem := m.mem.take off ++ bs ++ m.mem.drop (off + bs.length) } }, ?_, ⟨rfl, ?_, ?_, ?_, ?_⟩, ?_⟩
  · unfold Sess.wr
    rw [hm]
    simp only
    rw [if_pos ⟨hp, hl⟩]
  · simp
  · intro x hx
    simp only
    rw [List.getElem?_set_ne (fun h => hx h.symm)]
  · intro x m' hx
    by_cases hxb : x = b
    · subst hxb
      simp only [List.getElem?_set_self hlt, Option.some.injEq] at hx
      subst hx
      exact ⟨m, hm, rfl, hlen⟩
    · simp only [List.getElem?_set_ne (fun h => hxb h.symm)] at hx
      exact ⟨m', hx, rfl, rfl⟩
  · intro x m' hx
    by_cases hxb : x = b
    · subst hxb
      rw [hm] at hx
      cases hx
      refine ⟨{ m with mem := m.mem.take off ++ bs ++ m.mem.drop (off + bs.length) }, ?_, rfl, hlen⟩
      simp only [List.getElem?_set_self hlt]
    · refine ⟨m', ?_, rfl, rfl⟩
      simp only [List.getElem?_set_ne (fun h => hxb h.symm)]
      exact hx
  · rw [rd_ok (m := { m with mem := m.mem.take off ++ bs ++ m.mem.drop (off + bs.length) })]
    · congr 1
      have : off + bs.length = (m.mem.take off ++ bs).length := by
        simp only [List.length_append, List.length_take]
        omega
      rw [List.drop_zero]
      simp only
      conv => lhs; rw [this]; arg 1
      rw [List.take_left]
    · simp only [List.getElem?_set_self hlt]
    · exact hp
    · simp only [hlen]
      omega

/-- A link to a buffer of the current pool. -/
def LinkOk (s : Sess) (l : Link) : Prop :=
  l.pos ≤ l.last ∧ l.last ≤ s.chunk + maxHeader ∧ ∃ m, s.heap[l.buf]? = some m ∧ m.pool = s.pool ∧ m.mem.length = s.chunk + maxHeader

theorem linkOk_congr {s s' : Sess} {l : Link} (h : LinkOk s l) (hc : s'.chunk = s.chunk) (hp : s'.pool = s.pool)
    (hm : ∀ m, s.heap[l.buf]? = some m → ∃ m', s'.heap[l.buf]? = some m' ∧ m'.pool = m.pool ∧ m'.mem.length = m.mem.length) : LinkOk s' l := by
  obtain ⟨h1, h2, m, h3, h4, h5⟩ := h
  obtain ⟨m', e1, e2, e3⟩ := hm m h3
  exact ⟨h1, by rw [hc]; exact h2, m', e1, by rw [e2, hp, h4], by rw [e3, hc, h5]⟩

theorem linkOk_lt {s : Sess} {l : Link} (h : LinkOk s l) : l.buf < s.heap.length := by
  obtain ⟨_, _, m, h3, _⟩ := h
  obtain ⟨h, _⟩ := List.getElem?_eq_some_iff.1 h3
  exact h

theorem cap_ok {s : Sess} {b : Nat} {m : Buf} (h : s.heap[b]? = some m) : s.cap b = m.mem.length := by
  unfold Sess.cap
  rw [h]

theorem alloc_get (s : Sess) : s.alloc.1.heap[s.alloc.2.buf]? = some ⟨s.pool, List.replicate (s.chunk + maxHeader) 0⟩ := by
  show (s.heap ++ [_])[s.heap.length]? = _
  simp

theorem alloc_old (s : Sess) {b : Nat} (h : b < s.heap.length) : s.alloc.1.heap[b]? = s.heap[b]? := by
  show (s.heap ++ [_])[b]? = _
  rw [List.getElem?_append_left h]

theorem alloc_link (s : Sess) : LinkOk s.alloc.1 s.alloc.2 :=
  ⟨Nat.le_refl _, Nat.zero_le _, _, alloc_get s, rfl, by simp; rfl⟩

/-! ## Copies -/

/-- The chain `done ++ [lo]` is being filled in fresh buffers; `base` is the first of them. -/
structure Filling (s0 s : Sess) (base : Nat) (done : List Link) (lo : Link) (D : List (List UInt8)) (L : List UInt8) : Prop where
  eq : s = { s0 with heap := s.heap }
  live : s.pool ∈ s.live
  le : s0.heap.length ≤ base
  old : ∀ b, b < base → b < s0.heap.length → s.heap[b]? = s0.heap[b]?
  prev : base ≤ s.heap.length
  ids : ((done ++ [lo]).map (·.buf)).Nodup
  ge : ∀ l ∈ done ++ [lo], base ≤ l.buf
  ok : ∀ l ∈ done ++ [lo], LinkOk s l
  pos : lo.pos = 0
  data : s.rdAll done = .ok D
  last : s.rd lo.buf 0 lo.last = .ok L

/-- Buffers below `base` are as they were. -/
def Below (base : Nat) (s s' : Sess) : Prop := ∀ b, b < base → s'.heap[b]? = s.heap[b]?

theorem copyBuf_ok {s0 : Sess} {base : Nat} : ∀ (fuel : Nat) (s : Sess) (done : List Link) (lo : Link) (D : List (List UInt8)) (L bs : List UInt8),
    Filling s0 s base done lo D L → bs.length + (if L = [] then 1 else 2) ≤ fuel →
    ∃ s' done' lo', copyBuf fuel s done lo bs = .ok (s', done', lo') ∧
      Filling s0 s' base done' lo' (cutBuf fuel (s.chunk + maxHeader) D L bs).1 (cutBuf fuel (s.chunk + maxHeader) D L bs).2 ∧ Below base s s' ∧
      s'.chunk = s.chunk := by
  intro fuel
  induction fuel with
  | zero => intro s done lo D L bs _ hf; split at hf <;> omega
  | succ fuel ih =>
    intro s done lo D L bs h hf
    have hlo := h.ok lo (by simp)
    obtain ⟨p1, p2, m, hm, hpool, hmem⟩ := hlo
    have hcap : s.cap lo.buf = s.chunk + maxHeader := by rw [cap_ok hm, hmem]
    have hL : L.length = lo.last := rd_len h.last
    have hLm : m.mem.take lo.last = L := by
      obtain ⟨m', hm', _, _, e⟩ := rd_inv h.last
      rw [hm] at hm'
      cases hm'
      rw [e, List.drop_zero]
    have hge := h.ge lo (by simp)
    rw [copyBuf, cutBuf, hcap]
    simp only [hL]
    -- what holds after a write to `lo`
    have wrote : ∀ (xs : List UInt8), lo.last + xs.length ≤ s.chunk + maxHeader → ∃ s', s.wr lo.buf lo.last xs = .ok s' ∧
        Filling s0 s' base done { lo with last := lo.last + xs.length } D (L ++ xs) ∧ Below base s s' ∧ s'.chunk = s.chunk := by
      intro xs hxs
      obtain ⟨s', e, hw, hrd⟩ := wr_ok (bs := xs) (off := lo.last) hm (by rw [hpool]; exact h.live) (by omega)
      have heq := hw.eq
      refine ⟨s', e, ⟨?_, ?_, h.le, ?_, ?_, ?_, ?_, ?_, h.pos, ?_, ?_⟩, ?_, ?_⟩
      · have := h.eq
        rw [this] at heq
        exact heq
      · rw [heq]; exact h.live
      · intro b hb hb2
        rw [hw.other b (by omega)]
        exact h.old b hb hb2
      · rw [hw.len]; exact h.prev
      · have := h.ids
        rw [List.map_append] at this ⊢
        exact this
      · intro l hl
        rcases List.mem_append.1 hl with hl | hl
        · exact h.ge l (List.mem_append_left _ hl)
        · rw [List.mem_singleton.1 hl]; exact hge
      · intro l hl
        rcases List.mem_append.1 hl with hl | hl
        · exact linkOk_congr (h.ok l (List.mem_append_left _ hl)) (by rw [heq]) (by rw [heq]) (fun m hm => hw.back _ m hm)
        · rw [List.mem_singleton.1 hl]
          have := linkOk_congr (s' := s') (h.ok lo (by simp)) (by rw [heq]) (by rw [heq]) (fun m hm => hw.back _ m hm)
          obtain ⟨_, _, h3⟩ := this
          refine ⟨?_, ?_, h3⟩
          · simp only
            omega
          · simp only
            rw [heq]
            exact hxs
      · refine rdAll_congr h.data ?_
        intro l hl
        refine ⟨hw.other _ ?_, fun m _ hm => by rw [heq]; exact hm⟩
        have := h.ids
        rw [List.map_append, List.nodup_append] at this
        intro hne
        exact this.2.2 l.buf (List.mem_map_of_mem hl) lo.buf (by simp) hne
      · rw [← hLm]
        exact hrd
      · intro b hb
        exact hw.other b (by omega)
      · rw [heq]
    split
    · rename_i hfit
      obtain ⟨s', e, hF, hB, hC⟩ := wrote bs (by omega)
      rw [e, Res.bind_ok]
      exact ⟨s', _, _, rfl, hF, hB, hC⟩
    · rename_i hfit
      obtain ⟨s', e, hF, hB, hC⟩ := wrote (bs.take (s.chunk + maxHeader - lo.last)) (by rw [List.length_take]; omega)
      rw [e, Res.bind_ok]
      have hfull : lo.last + (bs.take (s.chunk + maxHeader - lo.last)).length = s.chunk + maxHeader := by
        rw [List.length_take]; omega
      rw [hfull] at hF
      have hlt : ∀ l ∈ done ++ [{ lo with last := s.chunk + maxHeader }], l.buf < s'.heap.length := fun l hl => linkOk_lt (hF.ok l hl)
      have halc : s'.alloc.1.chunk = s.chunk := hC
      have hFill : Filling s0 s'.alloc.1 base (done ++ [{ lo with last := s.chunk + maxHeader }]) s'.alloc.2
        (D ++ [L ++ bs.take (s.chunk + maxHeader - lo.last)]) [] := by
        refine ⟨?_, hF.live, h.le, ?_, ?_, ?_, ?_, ?_, rfl, ?_, ?_⟩
        · have := hF.eq
          show s'.alloc.1 = { s0 with heap := s'.alloc.1.heap }
          conv => lhs; unfold Sess.alloc
          simp only
          rw [this]
          rfl
        · intro b hb hb2
          rw [alloc_old _ (by have := hF.prev; omega)]
          exact hF.old b hb hb2
        · show base ≤ (s'.heap ++ [_]).length
          have := hF.prev
          simp
          omega
        · rw [List.map_append, List.nodup_append]
          refine ⟨hF.ids, by simp, ?_⟩
          intro a ha b hb
          obtain ⟨l, hl, rfl⟩ := List.mem_map.1 ha
          simp at hb
          subst hb
          have := hlt l hl
          show l.buf ≠ s'.heap.length
          omega
        · intro l hl
          rcases List.mem_append.1 hl with hl | hl
          · exact hF.ge l hl
          · rw [List.mem_singleton.1 hl]
            exact hF.prev
        · intro l hl
          rcases List.mem_append.1 hl with hl | hl
          · refine linkOk_congr (hF.ok l hl) rfl rfl ?_
            intro m hm
            exact ⟨m, by rw [alloc_old _ (hlt l hl)]; exact hm, rfl, rfl⟩
          · rw [List.mem_singleton.1 hl]
            exact alloc_link s'
        · have hd := rdAll_push (l := { lo with last := s.chunk + maxHeader }) (d := L ++ bs.take (s.chunk + maxHeader - lo.last)) hF.data (by
            have := hF.last
            simp only at this ⊢
            rw [h.pos]
            exact this)
          refine rdAll_congr hd ?_
          intro l hl
          exact ⟨alloc_old _ (hlt l hl), fun m _ hm => hm⟩
        · have := rd_ok (off := 0) (n := 0) (alloc_get s') hF.live (Nat.zero_le _)
          rw [List.take_zero] at this
          exact this
      have hFuel : (bs.drop (s.chunk + maxHeader - lo.last)).length + (if ([] : List UInt8) = [] then 1 else 2) ≤ fuel := by
        rw [if_pos rfl, List.length_drop]
        have : L = [] → lo.last = 0 := fun h => by rw [h] at hL; exact hL.symm
        split at hf
        · rename_i hLn
          have := this hLn
          unfold maxHeader
          omega
        · omega
      obtain ⟨s2, done2, lo2, e2, hF2, hB2, hC2⟩ := ih s'.alloc.1 (done ++ [{ lo with last := s.chunk + maxHeader }]) s'.alloc.2
        (D ++ [L ++ bs.take (s.chunk + maxHeader - lo.last)]) [] (bs.drop (s.chunk + maxHeader - lo.last)) hFill hFuel
      rw [halc] at hF2 hC2
      refine ⟨s2, done2, lo2, e2, hF2, ?_, hC2⟩
      intro b hb
      rw [hB2 b hb, alloc_old _ (by have := hF.prev; omega)]
      exact hB b hb

theorem copyChain_ok {s0 : Sess} {base : Nat} : ∀ (ls : List Link) (s : Sess) (done : List Link) (lo : Link) (D : List (List UInt8)) (L : List UInt8)
    (ds : List (List UInt8)), Filling s0 s base done lo D L → s.rdAll ls = .ok ds → (∀ l ∈ ls, l.buf < base) →
    ∃ s' chain, copyChain s done lo ls = .ok (s', chain) ∧ s'.rdAll chain = .ok (cutChain (s.chunk + maxHeader) D L ds) ∧
      s' = { s0 with heap := s'.heap } ∧ Below base s s' ∧ base ≤ s'.heap.length ∧ (chain.map (·.buf)).Nodup ∧
      (∀ l ∈ chain, base ≤ l.buf ∧ LinkOk s' l) := by
  intro ls
  induction ls with
  | nil =>
    intro s done lo D L ds h hd _
    cases hd
    refine ⟨s, _, rfl, ?_, h.eq, fun _ _ => rfl, h.prev, h.ids, fun l hl => ⟨h.ge l hl, h.ok l hl⟩⟩
    refine rdAll_push h.data ?_
    rw [h.pos]
    exact h.last
  | cons l ls ih =>
    intro s done lo D L ds h hd hb
    obtain ⟨d, ds', rfl, e1, e2⟩ := rdAll_cons hd
    obtain ⟨s1, done1, lo1, e, hF, hB, hC⟩ := copyBuf_ok (d.length + 2) s done lo D L d h (by split <;> omega)
    have hd' : s1.rdAll ls = .ok ds' := by
      refine rdAll_congr e2 ?_
      intro l' hl'
      refine ⟨hB _ (hb l' (List.mem_cons_of_mem _ hl')), fun m _ hm => ?_⟩
      have h1 : s1.live = s.live := by rw [hF.eq, h.eq]
      rw [h1]
      exact hm
    obtain ⟨s2, chain, e3, a1, a2, a3, a4, a5, a6⟩ := ih s1 done1 lo1 _ _ ds' hF hd' fun l hl => hb l (List.mem_cons_of_mem _ hl)
    refine ⟨s2, chain, ?_, ?_, a2, ?_, a4, a5, a6⟩
    · rw [copyChain, e1, Res.bind_ok, e, Res.bind_ok]
      exact e3
    · rw [hC] at a1
      rw [cutChain]
      exact a1
    · intro b hb2
      rw [a3 b hb2, hB b hb2]

/-- Chunk streams and their data. -/
def Datas (s : Sess) : List Strm → List AStrm → Prop
  | [], [] => True
  | st :: sts, a :: as => st.h = a.h ∧ s.rdAll st.chain = .ok a.frags ∧ Datas s sts as
  | _, _ => False

theorem datas_congr {s s' : Sess} : ∀ {sts : List Strm} {as : List AStrm}, Datas s sts as →
    (∀ l ∈ sts.flatMap (·.chain), s'.heap[l.buf]? = s.heap[l.buf]? ∧ ∀ m, s.heap[l.buf]? = some m → m.pool ∈ s.live → m.pool ∈ s'.live) →
    Datas s' sts as := by
  intro sts
  induction sts with
  | nil => intro as h _; cases as <;> exact h
  | cons st sts ih =>
    intro as h hc
    cases as with
    | nil => exact h.elim
    | cons a as =>
      obtain ⟨h1, h2, h3⟩ := h
      refine ⟨h1, rdAll_congr h2 ?_, ih h3 ?_⟩
      · intro l hl
        exact hc l (by rw [List.flatMap_cons]; exact List.mem_append_left _ hl)
      · intro l hl
        exact hc l (by rw [List.flatMap_cons]; exact List.mem_append_right _ hl)

theorem copyStreams_ok {n base : Nat} : ∀ (sts : List Strm) (as : List AStrm) (s : Sess), Datas s sts as → s.pool ∈ s.live → base ≤ s.heap.length →
    s.chunk + maxHeader = n → (∀ l ∈ sts.flatMap (·.chain), l.buf < base) →
    ∃ s' sts', copyStreams s sts = .ok (s', sts') ∧ Datas s' sts' (as.map fun a => { a with frags := recut n a.frags }) ∧
      s' = { s with heap := s'.heap } ∧ Below s.heap.length s s' ∧ s.heap.length ≤ s'.heap.length ∧ sts'.length = sts.length ∧
      ((sts'.flatMap (·.chain)).map (·.buf)).Nodup ∧ ∀ l ∈ sts'.flatMap (·.chain), s.heap.length ≤ l.buf ∧ LinkOk s' l := by
  intro sts
  induction sts with
  | nil =>
    intro as s h hl hb hn hlt
    cases as with
    | nil => exact ⟨s, [], rfl, trivial, rfl, fun _ _ => rfl, Nat.le_refl _, rfl, by simp, by simp⟩
    | cons a as => exact h.elim
  | cons st sts ih =>
    intro as s h hl hb hn hlt
    cases as with
    | nil => exact h.elim
    | cons a as =>
      obtain ⟨h1, h2, h3⟩ := h
      have hlt1 : ∀ l ∈ st.chain, l.buf < base := fun l hl => hlt l (by rw [List.flatMap_cons]; exact List.mem_append_left _ hl)
      have hlt2 : ∀ l ∈ sts.flatMap (·.chain), l.buf < base := fun l hl => hlt l (by rw [List.flatMap_cons]; exact List.mem_append_right _ hl)
      -- the first chunk stream
      obtain ⟨s1, chain, e1, a1, a2, a3, a4, a5, a6⟩ : ∃ s1 chain,
          (if st.chain = [] then .ok (s, []) else copyChain s.alloc.1 [] s.alloc.2 st.chain) = Res.ok (s1, chain) ∧
          s1.rdAll chain = .ok (recut n a.frags) ∧ s1 = { s with heap := s1.heap } ∧ Below s.heap.length s s1 ∧ s.heap.length ≤ s1.heap.length ∧
          (chain.map (·.buf)).Nodup ∧ ∀ l ∈ chain, s.heap.length ≤ l.buf ∧ LinkOk s1 l := by
        by_cases hc : st.chain = []
        · rw [if_pos hc]
          rw [hc] at h2
          have h2 : a.frags = [] := by
            unfold Sess.rdAll at h2
            exact (Res.ok.inj h2).symm
          exact ⟨s, [], rfl, by rw [h2]; rfl, rfl, fun _ _ => rfl, Nat.le_refl _, by simp, by simp⟩
        · rw [if_neg hc]
          have hne : a.frags ≠ [] := by
            intro hf
            rw [hf] at h2
            cases hch : st.chain with
            | nil => exact hc hch
            | cons l ls =>
              rw [hch] at h2
              obtain ⟨_, _, e, _⟩ := rdAll_cons h2
              cases e
          have hF : Filling s s.alloc.1 s.heap.length [] s.alloc.2 [] [] := by
            refine ⟨rfl, hl, Nat.le_refl _, fun b hb _ => alloc_old s hb, ?_, by simp, ?_, ?_, rfl, rfl, ?_⟩
            · show s.heap.length ≤ (s.heap ++ [_]).length
              simp
            · intro l hl
              rw [List.mem_singleton.1 hl]
              exact Nat.le_refl _
            · intro l hl
              rw [List.mem_singleton.1 hl]
              exact alloc_link s
            · have := rd_ok (off := 0) (n := 0) (alloc_get s) hl (Nat.zero_le _)
              rw [List.take_zero] at this
              exact this
          have hd : s.alloc.1.rdAll st.chain = .ok a.frags :=
            rdAll_congr h2 fun l hl => ⟨alloc_old s (by have := hlt1 l hl; omega), fun m _ hm => hm⟩
          obtain ⟨s1, chain, e, b1, b2, b3, b4, b5, b6⟩ := copyChain_ok st.chain s.alloc.1 [] s.alloc.2 [] [] a.frags hF hd
            (fun l hl => by have := hlt1 l hl; omega)
          refine ⟨s1, chain, e, ?_, b2, ?_, b4, b5, b6⟩
          · unfold recut
            rw [if_neg hne, ← hn]
            exact b1
          · intro b hb
            rw [b3 b hb, alloc_old s hb]
      have hlive : s1.live = s.live := by rw [a2]
      have hpool : s1.pool = s.pool := by rw [a2]
      have hchunk : s1.chunk = s.chunk := by rw [a2]
      obtain ⟨s2, sts2, e2, b1, b2, b3, b4, b5, b6, b7⟩ := ih as s1 (datas_congr h3 fun l hl =>
          ⟨a3 _ (by have := hlt2 l hl; omega), fun m _ hm => by rw [hlive]; exact hm⟩) (by rw [hlive, hpool]; exact hl) (by omega)
          (by rw [hchunk]; exact hn) hlt2
      have hlive2 : s2.live = s1.live := by rw [b2]
      have hchain : ∀ l ∈ chain, l.buf < s1.heap.length := fun l hl => linkOk_lt (a6 l hl).2
      refine ⟨s2, { st with chain } :: sts2, ?_, ⟨h1, ?_, b1⟩, ?_, ?_, by omega, by simp [b5], ?_, ?_⟩
      · rw [copyStreams, e1, Res.bind_ok, e2, Res.bind_ok]
      · refine rdAll_congr a1 ?_
        intro l hl
        exact ⟨b3 _ (hchain l hl), fun m _ hm => by rw [hlive2]; exact hm⟩
      · rw [a2] at b2
        exact b2
      · intro b hb
        rw [b3 b (by omega), a3 b hb]
      · rw [List.flatMap_cons, List.map_append, List.nodup_append]
        refine ⟨a5, b6, ?_⟩
        intro x hx y hy
        obtain ⟨l, hl, rfl⟩ := List.mem_map.1 hx
        obtain ⟨l', hl', rfl⟩ := List.mem_map.1 hy
        have h1 := hchain l hl
        have h2 := (b7 l' hl').1
        omega
      · intro l hl
        rw [List.flatMap_cons] at hl
        rcases List.mem_append.1 hl with hl | hl
        · refine ⟨(a6 l hl).1, linkOk_congr (a6 l hl).2 (by rw [b2]) (by rw [b2]) ?_⟩
          intro m hm
          exact ⟨m, by rw [b3 _ (hchain l hl)]; exact hm, rfl, rfl⟩
        · refine ⟨?_, (b7 l hl).2⟩
          have := (b7 l hl).1
          omega

end Verif.Rtmp
