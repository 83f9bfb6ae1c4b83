import Verif.RtmpMem

/-!
# RTMP: the session does what the machine without memory does
-/

namespace Verif.Rtmp

/-- The links of a session; `ex` are those that are being worked on. -/
def allLinks (s : Sess) (ex : List Link) : List Link := ex ++ s.free ++ s.streams.flatMap (·.chain)

structure Base (g : Cfg) (s : Sess) (ex : List Link) : Prop where
  chunk : 1 ≤ s.chunk
  live : s.pool ∈ s.live
  lt : ∀ p ∈ s.live, p < s.npools
  nodup : s.live.Nodup
  oldPool : ∀ p, s.oldPool = some p → p ≠ s.pool
  chg : s.changing = true → s.oldPool.isSome = true
  streams : s.streams.length = g.maxStreams
  ids : ((allLinks s ex).map (·.buf)).Nodup
  ok : ∀ l ∈ allLinks s ex, LinkOk s l

structure Match (s : Sess) (A : AM) : Prop where
  datas : Datas s s.streams A.streams
  chunk : s.chunk = A.chunk
  type3 : s.type3 = A.type3
  lastTs : s.lastTs = A.lastTs
  log : s.log = A.log

/-- The bytes that are left are `p`. -/
structure OldIs (s : Sess) (p : List UInt8) : Prop where
  size : s.oldSize = p.length
  data : p ≠ [] → ∃ ob off m, s.old = some (ob, off) ∧ s.rd ob off p.length = .ok p ∧ s.heap[ob]? = some m ∧
    (m.pool = s.pool → m.mem.length = s.chunk + maxHeader)

/-! ## Chunk streams -/

theorem datas_len {s : Sess} : ∀ {sts : List Strm} {as : List AStrm}, Datas s sts as → as.length = sts.length := by
  intro sts
  induction sts with
  | nil => intro as h; cases as with | nil => rfl | cons a as => exact h.elim
  | cons st sts ih =>
    intro as h
    cases as with
    | nil => exact h.elim
    | cons a as => simp [ih h.2.2]

theorem datas_get {s : Sess} : ∀ {sts : List Strm} {as : List AStrm} {c : Nat} {a : AStrm}, Datas s sts as → as[c]? = some a →
    ∃ st, sts[c]? = some st ∧ st.h = a.h ∧ s.rdAll st.chain = .ok a.frags := by
  intro sts
  induction sts with
  | nil => intro as c a h ha; cases as with | nil => simp at ha | cons a as => exact h.elim
  | cons st sts ih =>
    intro as c a h ha
    cases as with
    | nil => exact h.elim
    | cons a' as =>
      cases c with
      | zero =>
        simp at ha
        subst ha
        exact ⟨st, rfl, h.1, h.2.1⟩
      | succ c =>
        simp at ha ⊢
        exact ih h.2.2 ha

theorem datas_set {s : Sess} {st' : Strm} {a' : AStrm} (h1 : st'.h = a'.h) (h2 : s.rdAll st'.chain = .ok a'.frags) :
    ∀ {sts : List Strm} {as : List AStrm} (c : Nat), Datas s sts as → Datas s (sts.set c st') (as.set c a') := by
  intro sts
  induction sts with
  | nil => intro as c h; cases as with | nil => exact h | cons a as => exact h.elim
  | cons st sts ih =>
    intro as c h
    cases as with
    | nil => exact h.elim
    | cons a as =>
      cases c with
      | zero => exact ⟨h1, h2, h.2.2⟩
      | succ c => exact ⟨h.1, h.2.1, ih c h.2.2⟩

theorem set_split {α : Type} : ∀ {l : List α} {c : Nat} {x : α}, l[c]? = some x → ∃ l1 l2, l = l1 ++ x :: l2 ∧ ∀ y, l.set c y = l1 ++ y :: l2 := by
  intro l
  induction l with
  | nil => intro c x h; simp at h
  | cons a l ih =>
    intro c x h
    cases c with
    | zero =>
      simp at h
      subst h
      exact ⟨[], l, rfl, fun y => rfl⟩
    | succ c =>
      simp at h
      obtain ⟨l1, l2, rfl, e⟩ := ih h
      exact ⟨a :: l1, l2, rfl, fun y => by simp [e y]⟩

theorem rdAll_live {s s' : Sess} {ls : List Link} {ds : List (List UInt8)} (h : s.rdAll ls = .ok ds) (hh : s'.heap = s.heap)
    (hl : ∀ l ∈ ls, ∀ m, s.heap[l.buf]? = some m → m.pool ∈ s'.live) : s'.rdAll ls = .ok ds :=
  rdAll_congr h fun l hl' => ⟨by rw [hh], fun m hm _ => hl l hl' m hm⟩

theorem link_pool {s : Sess} {l : Link} (h : LinkOk s l) {m : Buf} (hm : s.heap[l.buf]? = some m) : m.pool = s.pool ∧ m.mem.length = s.chunk + maxHeader := by
  obtain ⟨_, _, m', h1, h2, h3⟩ := h
  rw [hm] at h1
  cases h1
  exact ⟨h2, h3⟩

theorem mem_chains {s : Sess} {ex : List Link} {l : Link} (h : l ∈ s.streams.flatMap (·.chain)) : l ∈ allLinks s ex :=
  List.mem_append_right _ h

/-- Links may be forgotten. -/
theorem base_drop {g : Cfg} {s : Sess} {ex : List Link} (h : Base g s ex) : Base g s [] := by
  refine ⟨h.chunk, h.live, h.lt, h.nodup, h.oldPool, h.chg, h.streams, ?_, fun l hl => h.ok l ?_⟩
  · have := h.ids
    unfold allLinks at this ⊢
    rw [List.append_assoc, List.map_append, List.nodup_append] at this
    exact this.2.1
  · unfold allLinks at hl ⊢
    rw [List.append_assoc]
    exact List.mem_append_right _ hl

/-- `finalize` when there is nothing left. -/
theorem finalize_eq {s : Sess} (h : s.changing = true → s.oldPool.isSome = true) : ∃ lv op, finalize s = { s with live := lv, oldPool := op, changing := false } ∧
    (∀ p ∈ s.live, (∀ q, s.oldPool = some q → p ≠ q) → p ∈ lv) ∧ (∀ p ∈ lv, p ∈ s.live) ∧ (s.live.Nodup → lv.Nodup) ∧
    (∀ p, op = some p → s.oldPool = some p) ∧ (s.changing = true → op = none ∧ ∃ p, s.oldPool = some p ∧ lv = s.live.erase p) := by
  unfold finalize
  by_cases hc : s.changing = true
  · rw [if_pos hc]
    cases ho : s.oldPool with
    | none => rw [ho] at h; simp [hc] at h
    | some p =>
      refine ⟨s.live.erase p, none, rfl, ?_, ?_, ?_, by simp, fun _ => ⟨rfl, p, rfl, rfl⟩⟩
      · intro q hq hne
        exact (List.mem_erase_of_ne (hne p rfl)).2 hq
      · intro q hq
        exact List.mem_of_mem_erase hq
      · exact fun h => h.erase p
  · rw [if_neg hc]
    refine ⟨s.live, s.oldPool, ?_, fun p hp _ => hp, fun p hp => hp, fun h => h, fun p hp => hp, fun h => absurd h hc⟩
    cases s
    simp at hc
    simp [hc]

theorem finalize_base {g : Cfg} {s : Sess} {ex : List Link} (h : Base g s ex) : Base g (finalize s) ex ∧ (finalize s).changing = false := by
  obtain ⟨lv, op, e, h1, h2, h3, h4, _⟩ := finalize_eq h.chg
  rw [e]
  refine ⟨⟨h.chunk, h1 _ h.live fun q hq => (h.oldPool q hq).symm, fun p hp => h.lt p (h2 p hp), h3 h.nodup, fun p hp => h.oldPool p (h4 p hp), by simp,
    h.streams, h.ids, h.ok⟩, rfl⟩

theorem finalize_match {g : Cfg} {s : Sess} {ex : List Link} {A : AM} (h : Base g s ex) (hm : Match s A) : Match (finalize s) A := by
  obtain ⟨lv, op, e, h1, h2, h3, h4, _⟩ := finalize_eq h.chg
  rw [e]
  refine ⟨datas_congr hm.datas ?_, hm.chunk, hm.type3, hm.lastTs, hm.log⟩
  intro l hl
  refine ⟨rfl, fun m hm _ => ?_⟩
  rw [(link_pool (h.ok l (mem_chains hl)) hm).1]
  exact h1 _ h.live fun q hq => (h.oldPool q hq).symm

/-! ## After a chunk -/

/-- A chunk was read, `p` is left. -/
structure Post (g : Cfg) (s : Sess) (A : AM) (p : List UInt8) (ex : List Link) : Prop where
  base : Base g s ex
  mat : Match s A
  old : OldIs s p
  csid : s.csid = 0
  cur : s.cur = none
  some : s.old.isSome = true

theorem setChunk_post {g : Cfg} {s : Sess} {A : AM} {p : List UInt8} {ex : List Link} (h : Post g s A p ex) (n : Nat) :
    ∃ s', setChunk s n = .ok s' ∧ Post g s' (A.setChunk n) p [] ∧ (s'.changing = false → s' = s ∧ A.setChunk n = A) ∧
      (s.changing = true → s'.changing = true) := by
  unfold setChunk AM.setChunk
  split
  · exact ⟨s, rfl, ⟨base_drop h.base, h.mat, h.old, h.csid, h.cur, h.some⟩, fun _ => ⟨rfl, rfl⟩, fun h => h⟩
  · rename_i hn
    obtain ⟨s1, hs1⟩ : ∃ s1 : Sess, s1 = { s with
      oldPool := some s.pool, chunk := n, pool := s.npools, npools := s.npools + 1, live := s.npools :: s.live
      changing := true, free := [] } := ⟨_, rfl⟩
    rw [← hs1]
    have hheap : s1.heap = s.heap := by rw [hs1]
    have hd : Datas s1 s.streams A.streams := by
      refine datas_congr h.mat.datas ?_
      intro l hl
      refine ⟨by rw [hheap], fun m _ hm => ?_⟩
      rw [hs1]
      exact List.mem_cons_of_mem _ hm
    obtain ⟨s2, sts, e, a1, a2, a3, a4, a5, a6, a7⟩ := copyStreams_ok (n := n + maxHeader) (base := s.heap.length) s.streams A.streams s1 hd
      (by rw [hs1]; simp) (by rw [hheap]; exact Nat.le_refl _) (by rw [hs1]) (fun l hl => linkOk_lt (h.base.ok l (mem_chains hl)))
    rw [hs1] at a2
    simp only at a2
    rw [e, Res.bind_ok]
    have hne : ∀ q ∈ s.live, q ≠ s.npools := fun q hq => by have := h.base.lt q hq; omega
    refine ⟨_, rfl, ⟨⟨?_, ?_, ?_, ?_, ?_, ?_, ?_, ?_, ?_⟩, ⟨?_, ?_, ?_, ?_, ?_⟩, ⟨?_, ?_⟩, ?_, ?_, ?_⟩, ?_, ?_⟩
    · simp only; rw [a2]; simp only; omega
    · simp only; rw [a2]; simp
    · intro q hq
      simp only at hq ⊢
      rw [a2] at hq ⊢
      simp only [List.mem_cons] at hq ⊢
      rcases hq with rfl | hq
      · omega
      · have := h.base.lt q hq; omega
    · simp only; rw [a2]
      simp only [List.nodup_cons]
      exact ⟨fun hm => hne _ hm rfl, h.base.nodup⟩
    · intro q hq
      simp only at hq ⊢
      rw [a2] at hq ⊢
      simp only [Option.some.injEq] at hq ⊢
      subst hq
      exact hne _ h.base.live
    · intro _; simp only; rw [a2]; rfl
    · simp only; rw [a5]; exact h.base.streams
    · unfold allLinks
      simp only
      rw [a2]
      simpa using a6
    · intro l hl
      unfold allLinks at hl
      simp only at hl
      rw [a2] at hl
      simp only [List.nil_append] at hl
      have := (a7 l hl).2
      exact linkOk_congr this rfl rfl fun m hm => ⟨m, hm, rfl, rfl⟩
    · simp only
      exact datas_congr a1 fun l hl => ⟨rfl, fun m _ hm => hm⟩
    · simp only; rw [a2]
    · simp only; rw [a2]; exact h.mat.type3
    · simp only; rw [a2]; exact h.mat.lastTs
    · simp only; rw [a2]; exact h.mat.log
    · simp only; rw [a2]; exact h.old.size
    · intro hp
      obtain ⟨ob, off, m, b1, b2, b3, b4⟩ := h.old.data hp
      have hlt : ob < s1.heap.length := by
        rw [hheap]
        obtain ⟨h, _⟩ := List.getElem?_eq_some_iff.1 b3
        exact h
      have hob : s2.heap[ob]? = s.heap[ob]? := by rw [a3 ob hlt, hheap]
      have hml : m.pool ∈ s.live := by
        obtain ⟨m', e1, e2, _⟩ := rd_inv b2
        rw [b3] at e1
        cases e1
        exact e2
      refine ⟨ob, off, m, ?_, ?_, ?_, ?_⟩
      · simp only; rw [a2]; exact b1
      · refine rd_congr b2 hob ?_
        intro m' _ hm'
        simp only; rw [a2]
        exact List.mem_cons_of_mem _ hm'
      · simp only; rw [hob]; exact b3
      · intro hq
        simp only at hq
        rw [a2] at hq
        exact absurd hq (hne _ hml)
    · simp only; rw [a2]; exact h.csid
    · simp only; rw [a2]; exact h.cur
    · simp only; rw [a2]; exact h.some
    · intro hq
      simp only at hq
      rw [a2] at hq
      simp at hq
    · intro _; simp only; rw [a2]

theorem setChunks_post {g : Cfg} : ∀ (ns : List Nat) {s : Sess} {A : AM} {p : List UInt8} {ex : List Link}, Post g s A p [] →
    (s.changing = false → Post g s A p ex) → ∃ s', setChunks s ns = .ok s' ∧ Post g s' (A.setChunks ns) p [] ∧
      (s'.changing = false → Post g s' (A.setChunks ns) p ex) := by
  intro ns
  induction ns with
  | nil => intro s A p ex h1 h2; exact ⟨s, rfl, h1, h2⟩
  | cons n ns ih =>
    intro s A p ex h1 h2
    obtain ⟨s1, e1, a1, a2, a3⟩ := setChunk_post h1 n
    obtain ⟨s2, e2, b1, b2⟩ := ih (ex := ex) a1 (by
      intro hc
      obtain ⟨r1, r2⟩ := a2 hc
      rw [r2, r1]
      refine h2 ?_
      rw [← r1]; exact hc)
    refine ⟨s2, ?_, b1, b2⟩
    unfold setChunks
    rw [e1, Res.bind_ok, e2]

/-! ## The states of the loop -/

/-- A buffer is being filled. -/
structure Held (s : Sess) (b : Link) (pend : List UInt8) : Prop where
  cur : s.cur = some b
  old : s.old = none
  size : s.oldSize = 0
  chg : s.changing = false
  data : s.rd b.buf 0 b.last = .ok pend

/-- Where the session is. -/
inductive Phase (g : Cfg) (H : Handler) (s : Sess) (A : AM) (pend : List UInt8) : Prop where
  | idle (m : Match s A) (cs : s.csid = 0) (cur : s.cur = none) (old : OldIs s pend) (chg : s.changing = true → s.oldSize ≠ 0)
      (init : s.old = none → s.free = [])
  | basic (b : Link) (h : Held s b pend) (m : Match s A) (cs : s.csid = 0) (pos : b.pos = 0) (no : basicHdr pend = none)
  | hdr (b : Link) (h : Held s b pend) (fmt n : Nat) (a : AStrm) (h' : Hdr) (cs : s.csid ≠ 0) (pos : b.pos = 0) (e : basicHdr pend = some (fmt, s.csid, n))
      (lt : s.csid < g.maxStreams) (st : A.streams[s.csid]? = some a) (no : header fmt n a.h A.type3 A.lastTs (pend.drop n) = (h', none))
      (m : Match s { A with streams := A.streams.set s.csid { a with h := h' } })
  | data (b : Link) (h : Held s b pend) (A1 : AM) (cs : s.csid ≠ 0) (pos : b.pos ≠ 0) (e : A.head g pend = .ok (A1, s.csid, b.pos))
      (no : A1.body H s.csid (pend.drop b.pos) = .more) (m : Match s A1)

structure Rel (g : Cfg) (H : Handler) (s : Sess) (A : AM) (pend : List UInt8) : Prop where
  base : Base g s s.cur.toList
  phase : Phase g H s A pend

theorem after_rel {g : Cfg} {H : Handler} {s : Sess} {A : AM} {p : List UInt8} {ex : List Link} (h1 : Post g s A p [])
    (h2 : s.changing = false → Post g s A p ex) : Rel g H (after s ex) A p := by
  unfold after
  by_cases hc : s.changing = true
  · rw [if_pos hc]
    split
    · rename_i hz
      obtain ⟨hb, hch⟩ := finalize_base h1.base
      have hm := finalize_match h1.base h1.mat
      obtain ⟨lv, op, e, _⟩ := finalize_eq h1.base.chg
      have hp : p = [] := by
        have := h1.old.size
        rw [hz] at this
        exact List.eq_nil_of_length_eq_zero this.symm
      refine ⟨?_, .idle hm ?_ ?_ ⟨?_, ?_⟩ ?_ ?_⟩
      · rw [show (finalize s).cur = none by rw [e]; exact h1.cur]
        exact hb
      · rw [e]; exact h1.csid
      · rw [e]; exact h1.cur
      · rw [e, ← h1.old.size]
      · intro hne; exact absurd hp hne
      · intro hq; rw [hch] at hq; cases hq
      · intro hq
        rw [e] at hq
        have := h1.some
        simp only at hq
        rw [hq] at this
        cases this
    · rename_i hz
      refine ⟨?_, .idle h1.mat h1.csid h1.cur h1.old (fun _ => hz) ?_⟩
      · rw [h1.cur]; exact h1.base
      · intro hq
        have := h1.some
        rw [hq] at this
        cases this
  · rw [if_neg hc]
    have h := h2 (by simpa using hc)
    refine ⟨?_, .idle ⟨?_, h.mat.chunk, h.mat.type3, h.mat.lastTs, h.mat.log⟩ h.csid h.cur ⟨h.old.size, ?_⟩ (fun hq => absurd hq hc) ?_⟩
    · simp only
      rw [h.cur]
      have hb := h.base
      refine ⟨hb.chunk, hb.live, hb.lt, hb.nodup, hb.oldPool, hb.chg, hb.streams, ?_, ?_⟩
      · have := hb.ids
        unfold allLinks at this ⊢
        simpa using this
      · intro l hl
        refine linkOk_congr (hb.ok l ?_) rfl rfl fun m hm => ⟨m, hm, rfl, rfl⟩
        unfold allLinks at hl ⊢
        simpa using hl
    · exact datas_congr h.mat.datas fun l hl => ⟨rfl, fun m _ hm => hm⟩
    · intro hne
      obtain ⟨ob, off, m, e1, e2, e3, e4⟩ := h.old.data hne
      exact ⟨ob, off, m, e1, rd_congr e2 rfl (fun m _ hm => hm), e3, e4⟩
    · intro hq
      have := h.some
      simp only at hq
      rw [hq] at this
      cases this

/-! ## The data of a chunk -/

/-- A buffer was filled: its bytes are `bb`, and `pend` are these and those that are left. -/
structure Mid (g : Cfg) (s : Sess) (b : Link) (bb pend : List UInt8) : Prop where
  base : Base g s [b]
  cur : s.cur = none
  data : s.rd b.buf 0 b.last = .ok bb
  rest : (s.old = none ∧ s.oldSize = 0 ∧ s.changing = false ∧ pend = bb) ∨
    (s.oldSize ≠ 0 ∧ b.last = s.chunk + maxHeader ∧ pend.take b.last = bb ∧ pend.length = b.last + s.oldSize ∧ ∃ ob off m, s.old = some (ob, off) ∧
      b.last ≤ off ∧ s.rd ob (off - b.last) (b.last + s.oldSize) = .ok pend ∧ s.heap[ob]? = some m ∧ m.pool ≠ s.pool)

theorem mid_len {g : Cfg} {s : Sess} {b : Link} {bb pend : List UInt8} (h : Mid g s b bb pend) : bb.length = b.last := rd_len h.data

theorem keep_ok {g : Cfg} {s : Sess} {b : Link} {bb pend : List UInt8} (h : Mid g s b bb pend) {k : Nat} (hk : k ≤ b.last) (p : Nat) :
    ∃ old size, keep s ⟨b.buf, p, k⟩ (b.last - k) = .ok { s with old := old, oldSize := size } ∧ old.isSome = true ∧
      OldIs { s with old := old, oldSize := size } (pend.drop k) := by
  unfold keep
  have hlen := mid_len h
  rcases h.rest with ⟨h1, h2, h3, rfl⟩ | ⟨h1, h2, h3, h4, ob, off, m, h5, h6, h7, h8, h9⟩
  · rw [h1]
    refine ⟨_, _, rfl, rfl, ?_, ?_⟩
    · simp only
      rw [List.length_drop]; omega
    · intro hne
      obtain ⟨m, e1, e2, e3, e4⟩ := rd_inv h.data
      refine ⟨b.buf, k, m, rfl, ?_, e1, ?_⟩
      · have := rd_part h.data (k := k) (j := b.last - k) (by omega)
        rw [Nat.zero_add] at this
        rw [List.length_drop, hlen]
        rw [List.take_of_length_le (by rw [List.length_drop]; omega)] at this
        exact rd_congr this rfl fun m _ hm => hm
      · intro _
        exact (link_pool (h.base.ok b (by unfold allLinks; simp)) e1).2
  · rw [h5]
    simp only
    rw [if_pos h1, if_neg (by omega)]
    refine ⟨_, _, rfl, rfl, ?_, ?_⟩
    · simp only
      rw [List.length_drop]; omega
    · intro hne
      refine ⟨ob, off - (b.last - k), m, rfl, ?_, h8, fun hq => absurd hq h9⟩
      have := rd_part h7 (k := k) (j := b.last + s.oldSize - k) (by omega)
      rw [show off - b.last + k = off - (b.last - k) by omega, List.take_of_length_le (by rw [List.length_drop]; omega)] at this
      rw [List.length_drop, h4]
      exact rd_congr this rfl fun m _ hm => hm

/-- What one round does, for the bytes `bb` of the buffer. -/
def Does (g : Cfg) (H : Handler) (A : AM) (bb pend : List UInt8) : Res Sess → Prop
  | .ok s' => (A.step g H bb = .more ∧ pend = bb ∧ s'.oldSize = 0 ∧ Rel g H s' A pend) ∨ ∃ A' n, A.step g H bb = .ok (A', n) ∧ Rel g H s' A' (pend.drop n)
  | .err => A.step g H bb = .bad
  | .ub => False

theorem perm_nodup {l l' : List Nat} (h : ∀ x, l.count x = l'.count x) : l.Nodup → l'.Nodup :=
  fun hn => (List.perm_iff_count.2 h).nodup hn

theorem step_of_head {g : Cfg} (H : Handler) {A A1 : AM} {bb : List UInt8} {c n : Nat} (h : A.head g bb = .ok (A1, c, n)) :
    (A1.body H c (bb.drop n) = .more → A.step g H bb = .more) ∧ (A1.body H c (bb.drop n) = .bad → A.step g H bb = .bad) ∧
      ∀ A2 k, A1.body H c (bb.drop n) = .ok (A2, k) → A.step g H bb = .ok (A2, n + k) := by
  unfold AM.step
  rw [h]
  refine ⟨fun e => ?_, fun e => ?_, fun A2 k e => ?_⟩ <;> simp only [e]

theorem body_sim {g : Cfg} {H : Handler} {s : Sess} {A A1 : AM} {b : Link} {bb pend : List UInt8} (h : Mid g s b bb pend) (hm : Match s A1)
    (hpos : b.pos ≠ 0) (hhead : A.head g bb = .ok (A1, s.csid, b.pos)) (hcs : s.csid ≠ 0) : Does g H A bb pend (body H s b) := by
  have hlen := mid_len h
  obtain ⟨n0, n1, n2, n3, n4, n5⟩ := head_ok hhead
  obtain ⟨sm, sb, so⟩ := step_of_head H hhead
  obtain ⟨r, hstep⟩ : ∃ r, A1.body H s.csid (bb.drop b.pos) = r := ⟨_, rfl⟩
  have hbody := hstep
  obtain ⟨a, ha⟩ : ∃ a, A1.streams[s.csid]? = some a := by
    have : s.csid < A1.streams.length := by rw [datas_len hm.datas, h.base.streams]; exact n5
    exact ⟨_, List.getElem?_eq_getElem this⟩
  obtain ⟨st, hst, hh, hfr⟩ := datas_get hm.datas ha
  have hbl : LinkOk s b := h.base.ok b (by unfold allLinks; simp)
  unfold body
  rw [hst]
  simp only
  unfold AM.body at hstep
  rw [ha] at hstep
  simp only at hstep
  rw [List.length_drop, hlen, ← hm.chunk, ← hh] at hstep
  obtain ⟨l1, l2, hl12, hset⟩ := set_split hst
  -- the data of the chunk
  have hrd : ∀ k, b.pos + k ≤ b.last → s.rd b.buf b.pos (b.pos + k - b.pos) = .ok ((bb.drop b.pos).take k) := by
    intro k hk
    have := rd_part h.data (k := b.pos) (j := k) (by omega)
    rw [Nat.zero_add] at this
    rw [Nat.add_sub_cancel_left]
    exact this
  have hlk : ∀ k, b.pos + k ≤ b.last → LinkOk s { b with last := b.pos + k } := by
    intro k hk
    obtain ⟨p1, p2, p3⟩ := hbl
    exact ⟨by simp, by simp only; omega, p3⟩
  split
  · -- more bytes are needed
    rename_i hmore
    rw [if_pos hmore] at hstep
    rw [← hstep] at hbody
    have hs : A.step g H bb = .more := sm hbody
    have hnf : bb.length < A.chunk + maxHeader := by
      refine Nat.lt_of_not_le fun hle => ?_
      exact step_enough (H := H) hle hs
    rcases h.rest with ⟨h1, h2, h3, rfl⟩ | ⟨h1, h2, _⟩
    · refine Or.inl ⟨hs, rfl, h2, ?_, ?_⟩
      · have hb := h.base
        exact ⟨hb.chunk, hb.live, hb.lt, hb.nodup, hb.oldPool, hb.chg, hb.streams, hb.ids, hb.ok⟩
      · refine .data b ⟨rfl, h1, h2, h3, rd_congr h.data rfl fun m _ hm => hm⟩ A1 hcs hpos hhead ?_ ⟨?_, hm.chunk, hm.type3, hm.lastTs, hm.log⟩
        · exact hbody
        · exact datas_congr hm.datas fun l hl => ⟨rfl, fun m _ hm => hm⟩
    · rw [← n3, ← hm.chunk] at hnf
      omega
  · rename_i hmore
    rw [if_neg hmore] at hstep
    split
    · -- a chunk that is not the last one
      rename_i hbig
      rw [if_pos hbig] at hstep
      have hk : b.pos + s.chunk ≤ b.last := by omega
      have hext : b.last - b.pos - s.chunk = b.last - (b.pos + s.chunk) := by omega
      obtain ⟨old, size, e1, e2, e3⟩ := keep_ok h hk b.pos
      rw [hext, e1, Res.bind_ok]
      rw [← hstep] at hbody
      refine Or.inr ⟨_, _, so _ _ hbody, ?_, ?_⟩
      · simp only
        rw [h.cur]
        have hb := h.base
        refine ⟨hb.chunk, hb.live, hb.lt, hb.nodup, hb.oldPool, hb.chg, by simp [hb.streams], ?_, ?_⟩
        · refine perm_nodup ?_ hb.ids
          intro x
          unfold allLinks
          simp only [hset]
          rw [hl12]
          simp only [List.flatMap_append, List.flatMap_cons, List.map_append, List.count_append, Option.toList, List.map_cons, List.map_nil, List.nil_append]
          omega
        · intro l hl
          unfold allLinks at hl
          simp only [hset] at hl
          have hmem : l = { b with last := b.pos + s.chunk } ∨ l ∈ allLinks s [b] := by
            unfold allLinks
            rw [hl12]
            simp only [List.flatMap_append, List.flatMap_cons, List.mem_append, Option.toList, List.mem_cons, List.not_mem_nil, or_false, false_or] at hl ⊢
            rcases hl with hl | hl | (hl | hl) | hl
            · exact Or.inr (Or.inl (Or.inr hl))
            · exact Or.inr (Or.inr (Or.inl hl))
            · exact Or.inr (Or.inr (Or.inr (Or.inl hl)))
            · exact Or.inl hl
            · exact Or.inr (Or.inr (Or.inr (Or.inr hl)))
          rcases hmem with rfl | hmem
          · exact linkOk_congr (hlk _ hk) rfl rfl fun m hm => ⟨m, hm, rfl, rfl⟩
          · exact linkOk_congr (hb.ok l hmem) rfl rfl fun m hm => ⟨m, hm, rfl, rfl⟩
      · refine .idle ⟨?_, ?_, hm.type3, hm.lastTs, hm.log⟩ rfl h.cur ?_ ?_ ?_
        · simp only
          refine datas_set ?_ ?_ _ (datas_congr hm.datas fun l hl => ⟨rfl, fun m _ hm => hm⟩)
          · rfl
          · simp only
            refine rdAll_congr (s := s) (rdAll_push hfr ?_) fun l hl => ⟨rfl, fun m _ hm => hm⟩
            exact hrd _ hk
        · rfl
        · refine ⟨?_, ?_⟩
          · exact e3.size
          · intro hne
            obtain ⟨ob, off, m, r1, r2, r3, r4⟩ := e3.data hne
            refine ⟨ob, off, m, r1, rd_congr r2 rfl fun m _ hm => hm, r3, r4⟩
        · simp only
          intro hc
          have hsz := e3.size
          simp only [List.length_drop] at hsz
          rcases h.rest with ⟨_, _, h3, _⟩ | ⟨h1, h2, h3, h4, _⟩
          · rw [h3] at hc; cases hc
          · rw [hsz]; omega
        · simp only
          intro hc
          rw [hc] at e2
          cases e2
    · -- the last chunk of a message
      rename_i hbig
      rw [if_neg hbig] at hstep
      have hk : b.pos + left st.h ≤ b.last := by omega
      have hext : b.last - b.pos - left st.h = b.last - (b.pos + left st.h) := by omega
      obtain ⟨old, size, e1, e2, e3⟩ := keep_ok h hk b.pos
      unfold handle
      simp only
      rw [hext, e1, Res.bind_ok]
      have hda : ({ s with old := old, oldSize := size } : Sess).rdAll (st.chain ++ [{ b with last := b.pos + left st.h }]) =
          .ok (a.frags ++ [(bb.drop b.pos).take (left st.h)]) :=
        rdAll_congr (s := s) (rdAll_push hfr (hrd _ hk)) fun l hl => ⟨rfl, fun m _ hm => hm⟩
      rw [hda, Res.bind_ok]
      simp only
      rw [← hm.log] at hstep
      split
      · rename_i hH
        rw [hH] at hstep
        rw [← hstep] at hbody
        exact sb hbody
      · rename_i sizes hH
        rw [hH] at hstep
        simp only at hstep
        obtain ⟨s1, hs1⟩ : ∃ s1 : Sess, s1 = { s with
            old := old, oldSize := size
            log := s.log ++ [⟨s.csid, (st.h.timestamp + st.h.dtime) % 2 ^ 32, st.h.mlen, st.h.type, st.h.msid,
              a.frags ++ [(bb.drop b.pos).take (left st.h)]⟩]
            streams := s.streams.set s.csid ⟨{ st.h with len := 0, timestamp := (st.h.timestamp + st.h.dtime) % 2 ^ 32 }, []⟩
            csid := 0 } := ⟨_, rfl⟩
        rw [← hs1]
        obtain ⟨A2, hA2⟩ : ∃ A2 : AM, A2 = { A1 with
            chunk := s.chunk
            log := s.log ++ [⟨s.csid, (st.h.timestamp + st.h.dtime) % 2 ^ 32, st.h.mlen, st.h.type, st.h.msid,
              a.frags ++ [(bb.drop b.pos).take (left st.h)]⟩]
            streams := A1.streams.set s.csid ⟨{ st.h with len := 0, timestamp := (st.h.timestamp + st.h.dtime) % 2 ^ 32 }, []⟩ } := ⟨_, rfl⟩
        rw [← hA2] at hstep
        have hpost : Post g s1 A2 (pend.drop (b.pos + left st.h)) (st.chain ++ [{ b with last := b.pos + left st.h }]) := by
          have hb := h.base
          rw [hs1, hA2]
          refine ⟨⟨hb.chunk, hb.live, hb.lt, hb.nodup, hb.oldPool, hb.chg, by simp [hb.streams], ?_, ?_⟩,
            ⟨?_, rfl, hm.type3, hm.lastTs, rfl⟩, ⟨e3.size, ?_⟩, rfl, h.cur, e2⟩
          · refine perm_nodup ?_ hb.ids
            intro x
            unfold allLinks
            simp only [hset]
            rw [hl12]
            simp only [List.flatMap_append, List.flatMap_cons, List.map_append, List.count_append, List.map_cons, List.map_nil, List.count_nil]
            omega
          · intro l hl
            unfold allLinks at hl
            simp only [hset] at hl
            have hmem : l = { b with last := b.pos + left st.h } ∨ l ∈ allLinks s [b] := by
              unfold allLinks
              rw [hl12]
              simp only [List.flatMap_append, List.flatMap_cons, List.mem_append, List.mem_cons, List.not_mem_nil, or_false, false_or] at hl ⊢
              rcases hl with ((hl | hl) | hl) | hl | hl
              · exact Or.inr (Or.inr (Or.inr (Or.inl hl)))
              · exact Or.inl hl
              · exact Or.inr (Or.inl (Or.inr hl))
              · exact Or.inr (Or.inr (Or.inl hl))
              · exact Or.inr (Or.inr (Or.inr (Or.inr hl)))
            rcases hmem with rfl | hmem
            · exact linkOk_congr (hlk _ hk) rfl rfl fun m hm => ⟨m, hm, rfl, rfl⟩
            · exact linkOk_congr (hb.ok l hmem) rfl rfl fun m hm => ⟨m, hm, rfl, rfl⟩
          · simp only
            exact datas_set rfl rfl _ (datas_congr hm.datas fun l hl => ⟨rfl, fun m _ hm => hm⟩)
          · intro hne
            obtain ⟨ob, off, m, r1, r2, r3, r4⟩ := e3.data hne
            exact ⟨ob, off, m, r1, rd_congr r2 rfl fun m _ hm => hm, r3, r4⟩
        obtain ⟨s2, e4, q1, q2⟩ := setChunks_post sizes (ex := st.chain ++ [{ b with last := b.pos + left st.h }])
          (⟨base_drop hpost.base, hpost.mat, hpost.old, hpost.csid, hpost.cur, hpost.some⟩ : Post g s1 A2 _ []) (fun _ => hpost)
        rw [e4, Res.bind_ok]
        rw [← hstep] at hbody
        exact Or.inr ⟨_, _, so _ _ hbody, after_rel q1 q2⟩

end Verif.Rtmp
