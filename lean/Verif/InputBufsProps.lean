import Verif.InputBufs

/-!
# Property C24: buffers that readers hold are not released, and all others are in the end
-/

namespace Verif.InputBufs

open Verif.BufQueue (Q)

/-! ## Use -/

/-- The pointer `p` is in the buffer number `i` of the buffers `used`. -/
def At (size : Nat) (used : List Nat) (p i : Nat) : Prop := used.findIdx? (BufQueue.contains size · p) = some i

instance (size : Nat) (used : List Nat) (p i : Nat) : Decidable (At size used p i) := inferInstanceAs (Decidable (_ = _))

/-- The number of buffers released so far. -/
def base (o : Obj) : Nat := o.got.length - o.q.used.length

/-- Segment `seg` may start in the buffer number `i`, next to what is locked: the data of segments is in the order of their
indexes. -/
def Fits (size : Nat) (o : Obj) (seg i : Nat) : Prop :=
  ∀ l ∈ o.locks, ∀ j, At size o.q.used l.ptr j → (l.seg < seg → j ≤ i) ∧ (seg < l.seg → i ≤ j)

/-- A reader locks a segment whose data is there, from the buffer `k` on; the data of segments is in the order of their
indexes. When buffers were linked to another track, the pointer is not used (the filler gives NULL). -/
def LockOk (size : Nat) (o : Obj) (seg ptr k : Nat) : Prop :=
  base o ≤ k ∧ (o.noPartial = false → ∃ i, At size o.q.used ptr i ∧ k = base o + i ∧ Fits size o seg i ∧
    (0 < o.minSeg → ∀ m, At size o.q.used o.minPtr m → (seg < o.minSeg → i ≤ m) ∧ (o.minSeg ≤ seg → m ≤ i)))

/-- The first segment that is in use is given with the place of its data. -/
def MinOk (size : Nat) (o : Obj) (seg ptr : Nat) : Prop :=
  o.noPartial = false → 0 < seg → ∃ m, At size o.q.used ptr m ∧
    ∀ l ∈ o.locks, ∀ i, At size o.q.used l.ptr i → (l.seg < seg → i ≤ m) ∧ (seg ≤ l.seg → m ≤ i)

/-- What callers do: tracks have different names, calls are for tracks that exist, the allocator does not hand out
buffers that are in use, and a track is not linked to itself. -/
def Allowed (size : Nat) (w : World) : Op → Prop
  | .trackInit t => ∀ p ∈ w.tracks, p.1 ≠ t
  | .get t _ fresh => (∃ a, (t, a) ∈ w.tracks) ∧ ∀ b, fresh = some b → b ∉ w.held
  | .lock t seg ptr _ k => ∃ a o, (t, a) ∈ w.tracks ∧ w.heap a = some o ∧ LockOk size o seg ptr k
  | .setMinUsed t seg ptr => ∃ a o, (t, a) ∈ w.tracks ∧ w.heap a = some o ∧ MinOk size o seg ptr
  | .link dst src => dst ≠ src ∧ (∃ a, (dst, a) ∈ w.tracks) ∧ ∃ a, (src, a) ∈ w.tracks
  | _ => True

/-- The states that can come about. -/
inductive Reach (size maxFree : Nat) : World → Prop where
  | empty : Reach size maxFree empty
  | step {w w' : World} (op : Op) : Reach size maxFree w → Allowed size w op → step size maxFree w op = .ok w' →
      Reach size maxFree w'

/-! ## Invariant -/

def nodes (o : Obj) : List Nat := o.q.used ++ o.q.free

/-- Of one object, with `nt` tracks that point to it and the holds `hs` on it. -/
structure ObjInv (size nl nt : Nat) (hs : List Hold) (o : Obj) : Prop where
  sz     : o.q.allocSize = size
  suffix : o.q.used <:+ o.got
  refs   : o.refCount = nt + o.locks.length
  count  : o.lockCount = hs.length
  ids    : (o.locks.map (·.id)).Nodup
  small  : ∀ l ∈ o.locks, l.id < nl
  lrefs  : ∀ l ∈ o.locks, l.refs = hs.countP (fun h => h.lock = l.id) ∧ 0 < l.refs
  hlock  : ∀ h ∈ hs, ∃ l ∈ o.locks, l.id = h.lock
  hbase  : ∀ h ∈ hs, base o ≤ h.k
  sorted : o.noPartial = false → o.locks.Pairwise (fun a b => a.seg < b.seg)
  pos    : o.noPartial = false → ∀ l ∈ o.locks, ∃ i, At size o.q.used l.ptr i ∧ Fits size o l.seg i
  hpos   : o.noPartial = false → ∀ h ∈ hs, ∀ l ∈ o.locks, l.id = h.lock → ∀ i, At size o.q.used l.ptr i → base o + i ≤ h.k
  min    : MinOk size o o.minSeg o.minPtr

def nt (w : World) (a : Nat) : Nat := w.tracks.countP (fun p => p.2 = a)
def hs (w : World) (a : Nat) : List Hold := w.holds.filter (fun h => h.obj = a)

/-- The buffers: what the allocator handed out is in exactly one place. -/
structure AInv (w : World) : Prop where
  nodup : ∀ a o, w.heap a = some o → (nodes o).Nodup
  sub   : ∀ a o, w.heap a = some o → ∀ x ∈ nodes o, x ∈ w.held
  sep   : ∀ a b o p, a ≠ b → w.heap a = some o → w.heap b = some p → ∀ x ∈ nodes o, x ∉ nodes p
  cover : ∀ x ∈ w.held, ∃ a o, w.heap a = some o ∧ x ∈ nodes o

structure Inv (size : Nat) (w : World) : Prop where
  objs  : ∀ a o, w.heap a = some o → ObjInv size w.nextLock (nt w a) (hs w a) o
  small : ∀ a o, w.heap a = some o → a < w.nextObj
  holds : ∀ h ∈ w.holds, ∃ o, w.heap h.obj = some o
  live  : ∀ p ∈ w.tracks, ∃ o, w.heap p.2 = some o
  names : (w.tracks.map (·.1)).Nodup
  pos   : ∀ a o, w.heap a = some o → 0 < o.refCount
  alloc : AInv w

/-! ## Lemmas on the queue of buffers -/

theorem freeLoop_at (size limit : Nat) : ∀ (l : List Nat) (q : Q) (n : Nat), q.allocSize = size → At size l limit n →
    ∃ keep, (BufQueue.freeLoop limit l q).1.used = l.drop n ∧ (BufQueue.freeLoop limit l q).1.allocSize = size ∧
      (BufQueue.freeLoop limit l q).1.free = keep ∧
      (l.take n ++ q.free).Perm (keep ++ (BufQueue.freeLoop limit l q).2)
  | [], q, n, _, h => by unfold At at h; simp at h
  | [cur], q, n, hs, h => by
    unfold At at h
    rw [List.findIdx?_cons] at h
    split at h
    · injection h with h; subst h
      exact ⟨_, rfl, hs, rfl, by simp [BufQueue.freeLoop]⟩
    · simp at h
  | cur :: next :: rest, q, n, hs, h => by
    unfold At at h
    rw [List.findIdx?_cons] at h
    by_cases hc : BufQueue.contains size cur limit = true
    · rw [if_pos hc] at h
      injection h with h; subst h
      unfold BufQueue.freeLoop
      rw [hs, if_pos hc]
      exact ⟨_, rfl, rfl, rfl, by simp⟩
    · rw [if_neg hc] at h
      obtain ⟨m, hm, rfl⟩ := Option.map_eq_some_iff.1 h
      unfold BufQueue.freeLoop
      rw [hs, if_neg hc]
      dsimp only
      have hrs : (BufQueue.release q cur).1.allocSize = size := by
        unfold BufQueue.release; split <;> exact hs
      obtain ⟨keep, h1, h2, h3, h4⟩ := freeLoop_at size limit (next :: rest) (BufQueue.release q cur).1 m hrs hm
      refine ⟨keep, by rw [h1, List.drop_succ_cons], h2, h3, ?_⟩
      rw [List.take_succ_cons]
      unfold BufQueue.release at h4 ⊢
      split at h4
      · rename_i hl
        rw [if_pos hl] at ⊢
        simp only [List.cons_append, List.nil_append]
        exact (List.Perm.cons cur h4).trans List.perm_middle.symm
      · rename_i hl
        rw [if_neg hl] at ⊢
        simp only [List.nil_append, List.cons_append]
        exact (List.perm_middle (l₁ := (next :: rest).take m)).symm.trans h4

theorem free_at {size limit n : Nat} {q : Q} (hs : q.allocSize = size) (h : At size q.used limit n) :
    (BufQueue.free q limit).1.used = q.used.drop n ∧ (BufQueue.free q limit).1.allocSize = size ∧
      (q.used ++ q.free).Perm ((BufQueue.free q limit).1.used ++ (BufQueue.free q limit).1.free ++ (BufQueue.free q limit).2) := by
  unfold BufQueue.free
  cases e : q.used with
  | nil => rw [e] at h; unfold At at h; simp at h
  | cons cur rest =>
    rw [e] at h
    obtain ⟨keep, h1, h2, h3, h4⟩ := freeLoop_at size limit (cur :: rest) q n hs h
    refine ⟨h1, h2, ?_⟩
    dsimp only
    rw [h1, h3, List.append_assoc]
    have : (cur :: rest) ++ q.free = (cur :: rest).take n ++ ((cur :: rest).drop n ++ q.free) := by
      rw [← List.append_assoc, List.take_append_drop]
    rw [this]
    refine (List.perm_append_comm_assoc _ _ _).trans ?_
    exact List.Perm.append_left _ h4

theorem At.lt {size p i : Nat} {used : List Nat} (h : At size used p i) : i < used.length :=
  (List.findIdx?_eq_some_iff_findIdx_eq.1 h).1

theorem At.drop {size p i n : Nat} {used : List Nat} (h : At size used p i) (hn : n ≤ i) : At size (used.drop n) p (i - n) := by
  unfold At at *
  rw [List.findIdx?_eq_some_iff_getElem] at *
  obtain ⟨hi, h1, h2⟩ := h
  refine ⟨by rw [List.length_drop]; omega, ?_, ?_⟩
  · rw [List.getElem_drop]
    have e : n + (i - n) = i := by omega
    simp only [e]; exact h1
  · intro j hj
    rw [List.getElem_drop]
    exact h2 (n + j) (by omega)

theorem At.of_drop {size p i n m : Nat} {used : List Nat} (h : At size (used.drop n) p i) (hm : At size used p m) (hn : n ≤ m) :
    m = n + i := by
  have := hm.drop hn
  unfold At at this h
  rw [h] at this
  injection this with this
  omega

theorem At.append {size p i : Nat} {used : List Nat} (h : At size used p i) (b : List Nat) : At size (used ++ b) p i := by
  unfold At at *
  rw [List.findIdx?_append, h]; rfl

theorem At.of_append {size p i m : Nat} {used b : List Nat} (h : At size (used ++ b) p i) (hm : At size used p m) : i = m := by
  have := hm.append b
  unfold At at this h
  rw [h] at this
  injection this

theorem At.unique {size p i j : Nat} {used : List Nat} (h : At size used p i) (h' : At size used p j) : i = j := by
  unfold At at *; rw [h] at h'; injection h'

/-! ## Lemmas: one object -/

theorem base_drop {o : Obj} {q : Q} {n : Nat} (hsf : o.q.used <:+ o.got) (hq : q.used = o.q.used.drop n) (hn : n ≤ o.q.used.length) :
    base { o with q := q } = base o + n := by
  unfold base
  dsimp only
  rw [hq, List.length_drop]
  have := hsf.length_le
  omega

theorem inv_drop {size nl nt : Nat} {hs : List Hold} {o : Obj} (h : ObjInv size nl nt hs o) {q : Q} {n : Nat}
    (hq : q.used = o.q.used.drop n) (hz : q.allocSize = size) (hp : o.noPartial = false) (hn : n ≤ o.q.used.length)
    (hl : ∀ l ∈ o.locks, ∀ i, At size o.q.used l.ptr i → n ≤ i)
    (hm : 0 < o.minSeg → ∀ m, At size o.q.used o.minPtr m → n ≤ m) : ObjInv size nl nt hs { o with q := q } := by
  have hb := base_drop h.suffix hq hn
  -- positions move by `n`
  have hat : ∀ l ∈ o.locks, ∀ j, At size q.used l.ptr j → At size o.q.used l.ptr (n + j) := by
    intro l hlm j hj
    obtain ⟨i, hi, _⟩ := h.pos hp l hlm
    rw [hq] at hj
    have := hj.of_drop hi (hl l hlm i hi)
    rw [← this]; exact hi
  have hfit : ∀ l ∈ o.locks, ∀ i, n ≤ i → Fits size o l.seg i → Fits size { o with q := q } l.seg (i - n) := by
    intro l _ i hni hf l' hl' j hj
    have h1 := hf l' hl' (n + j) (hat l' hl' j hj)
    exact ⟨fun hs => by have := h1.1 hs; omega, fun hs => by have := h1.2 hs; omega⟩
  refine ⟨hz, ?_, h.refs, h.count, h.ids, h.small, h.lrefs, h.hlock, ?_, h.sorted, ?_, ?_, ?_⟩
  · show q.used <:+ o.got
    rw [hq]; exact (List.drop_suffix n _).trans h.suffix
  · intro x hx
    rw [hb]
    obtain ⟨l, hlm, hid⟩ := h.hlock x hx
    obtain ⟨i, hi, _⟩ := h.pos hp l hlm
    have h1 := h.hpos hp x hx l hlm hid i hi
    have h2 := hl l hlm i hi
    omega
  · intro _ l hlm
    obtain ⟨i, hi, hf⟩ := h.pos hp l hlm
    have hni := hl l hlm i hi
    refine ⟨i - n, ?_, hfit l hlm i hni hf⟩
    show At size q.used l.ptr (i - n)
    rw [hq]; exact hi.drop hni
  · intro _ x hx l hlm hid i hi
    rw [hb]
    have h1 := h.hpos hp x hx l hlm hid _ (hat l hlm i hi)
    omega
  · intro _ hseg
    obtain ⟨m, hma, hmo⟩ := h.min hp hseg
    have hnm := hm hseg m hma
    refine ⟨m - n, ?_, fun l hlm i hi => ?_⟩
    · show At size q.used o.minPtr (m - n)
      rw [hq]; exact hma.drop hnm
    · have h1 := hmo l hlm _ (hat l hlm i hi)
      exact ⟨fun hs => by have := h1.1 hs; omega, fun hs => by have := h1.2 hs; omega⟩

/-- `freeBufs` on one object. -/
def trim (o : Obj) : Obj × List Nat :=
  match limit o with
  | none => (o, [])
  | some p => ({ o with q := (BufQueue.free o.q p).1 }, (BufQueue.free o.q p).2)

theorem limit_ok {size nl nt : Nat} {hs : List Hold} {o : Obj} (h : ObjInv size nl nt hs o) {p : Nat} (hp : limit o = some p) :
    o.noPartial = false ∧ ∃ n, At size o.q.used p n ∧ (∀ l ∈ o.locks, ∀ i, At size o.q.used l.ptr i → n ≤ i) ∧
      ∀ m, At size o.q.used o.minPtr m → n ≤ m := by
  unfold limit at hp
  split at hp
  · exact nomatch hp
  · rename_i hnp
    have hnp : o.noPartial = false := by simpa using hnp
    split at hp
    · exact nomatch hp
    · rename_i hseg
      obtain ⟨m, hma, hmo⟩ := h.min hnp (by omega)
      refine ⟨hnp, ?_⟩
      split at hp
      · rename_i hl
        injection hp with hp; subst hp
        refine ⟨m, hma, (fun l hlm => ?_), fun k hk => by rw [hk.unique hma]; exact Nat.le_refl _⟩
        rw [hl] at hlm; exact absurd hlm (List.not_mem_nil)
      · rename_i l0 rest hl
        have hmem : l0 ∈ o.locks := by rw [hl]; exact List.mem_cons_self ..
        have hsrt := h.sorted hnp
        rw [hl] at hsrt
        have hs0 := (List.pairwise_cons.1 hsrt).1
        split at hp
        · rename_i hlt
          injection hp with hp; subst hp
          obtain ⟨i0, hi0, hf⟩ := h.pos hnp l0 hmem
          refine ⟨i0, hi0, fun l hlm i hi => ?_, fun k hk => ?_⟩
          · rw [hl] at hlm
            rcases List.mem_cons.1 hlm with e | hr
            · rw [e] at hi; rw [hi.unique hi0]; exact Nat.le_refl _
            · exact (hf l (by rw [hl]; exact List.mem_cons_of_mem _ hr) i hi).2 (hs0 l hr)
          · rw [hk.unique hma]; exact (hmo l0 hmem i0 hi0).1 hlt
        · rename_i hge
          injection hp with hp; subst hp
          refine ⟨m, hma, fun l hlm i hi => ?_, fun k hk => by rw [hk.unique hma]; exact Nat.le_refl _⟩
          refine (hmo l hlm i hi).2 ?_
          rw [hl] at hlm
          rcases List.mem_cons.1 hlm with e | hr
          · rw [e]; omega
          · have := hs0 l hr; omega

theorem inv_trim {size nl nt : Nat} {hs : List Hold} {o : Obj} (h : ObjInv size nl nt hs o) :
    ObjInv size nl nt hs (trim o).1 ∧ (nodes o).Perm (nodes (trim o).1 ++ (trim o).2) ∧ (trim o).1.refCount = o.refCount := by
  unfold trim
  split
  · exact ⟨h, by simp, rfl⟩
  · rename_i p hp
    obtain ⟨hnp, n, ha, hl, hm⟩ := limit_ok h hp
    obtain ⟨h1, h2, h3⟩ := free_at h.sz ha
    exact ⟨inv_drop h h1 h2 hnp (Nat.le_of_lt ha.lt) hl (fun _ => hm), h3, rfl⟩

theorem inv_grow {size nl nt : Nat} {hs : List Hold} {o : Obj} (h : ObjInv size nl nt hs o) {q : Q} {b : Nat}
    (hq : q.used = o.q.used ++ [b]) (hz : q.allocSize = size) :
    ObjInv size nl nt hs { o with q := q, got := o.got ++ [b] } := by
  have hb : base { o with q := q, got := o.got ++ [b] } = base o := by
    unfold base
    dsimp only
    rw [hq, List.length_append, List.length_append]
    simp only [List.length_singleton]
    omega
  have hat : o.noPartial = false → ∀ l ∈ o.locks, ∀ j, At size q.used l.ptr j → At size o.q.used l.ptr j := by
    intro hp l hlm j hj
    obtain ⟨i, hi, _⟩ := h.pos hp l hlm
    rw [hq] at hj
    rw [hj.of_append hi]; exact hi
  refine ⟨hz, ?_, h.refs, h.count, h.ids, h.small, h.lrefs, h.hlock, ?_, h.sorted, ?_, ?_, ?_⟩
  · show q.used <:+ o.got ++ [b]
    rw [hq]
    obtain ⟨t, ht⟩ := h.suffix
    exact ⟨t, by rw [← ht, List.append_assoc]⟩
  · intro x hx; rw [hb]; exact h.hbase x hx
  · intro hp l hlm
    obtain ⟨i, hi, hf⟩ := h.pos hp l hlm
    refine ⟨i, ?_, fun l' hl' j hj => hf l' hl' j (hat hp l' hl' j hj)⟩
    show At size q.used l.ptr i
    rw [hq]; exact hi.append _
  · intro hp x hx l hlm hid i hi
    rw [hb]; exact h.hpos hp x hx l hlm hid i (hat hp l hlm i hi)
  · intro hp hseg
    obtain ⟨m, hma, hmo⟩ := h.min hp hseg
    refine ⟨m, ?_, fun l hlm i hi => hmo l hlm i (hat hp l hlm i hi)⟩
    show At size q.used o.minPtr m
    rw [hq]; exact hma.append _

/-- A change of the queue that keeps the buffers in use. -/
theorem inv_queue {size nl nt : Nat} {hs : List Hold} {o : Obj} (h : ObjInv size nl nt hs o) {q : Q}
    (hq : q.used = o.q.used) (hz : q.allocSize = size) : ObjInv size nl nt hs { o with q := q } := by
  obtain ⟨h1, h2, h3, h4, h5, h6, h7, h8, h9, h10, h11, h12, h13⟩ := h
  refine ⟨hz, by show q.used <:+ o.got; rw [hq]; exact h2, h3, h4, h5, h6, h7, h8, ?_, h10, ?_, ?_, ?_⟩
  · unfold base; dsimp only; rw [hq]; exact h9
  · unfold Fits; dsimp only; rw [hq]; exact h11
  · unfold base; dsimp only; rw [hq]; exact h12
  · unfold MinOk; dsimp only; rw [hq]; exact h13

/-- What a lock is, without its count. -/
def key (l : Lock) : Nat × Nat × Nat := (l.id, l.seg, l.ptr)

theorem key_mem {ls ls' : List Lock} (h : ls'.map key = ls.map key) {l : Lock} (hl : l ∈ ls') :
    ∃ l0 ∈ ls, l0.id = l.id ∧ l0.seg = l.seg ∧ l0.ptr = l.ptr := by
  have : key l ∈ ls.map key := by rw [← h]; exact List.mem_map_of_mem hl
  obtain ⟨l0, hm, he⟩ := List.mem_map.1 this
  unfold key at he
  injection he with h1 he
  injection he with h2 h3
  exact ⟨l0, hm, h1, h2, h3⟩

/-- Only the counts of locks and the holds change. -/
theorem inv_relock {size nl nt : Nat} {hs hs' : List Hold} {o : Obj} (h : ObjInv size nl nt hs o) {ls : List Lock} {c : Nat}
    (hk : ls.map key = o.locks.map key) (hc : c = hs'.length)
    (hr : ∀ l ∈ ls, l.refs = hs'.countP (fun h => h.lock = l.id) ∧ 0 < l.refs)
    (hh : ∀ x ∈ hs', (∃ l ∈ o.locks, l.id = x.lock) ∧ base o ≤ x.k ∧
      (o.noPartial = false → ∀ l ∈ o.locks, l.id = x.lock → ∀ i, At size o.q.used l.ptr i → base o + i ≤ x.k)) :
    ObjInv size nl nt hs' { o with locks := ls, lockCount := c } := by
  have hlen : ls.length = o.locks.length := by
    have := congrArg List.length hk
    simpa using this
  have hids : ls.map (·.id) = o.locks.map (·.id) := by
    have := congrArg (List.map Prod.fst) hk
    rw [List.map_map, List.map_map] at this
    exact this
  have hfit : ∀ seg i, Fits size o seg i → Fits size { o with locks := ls, lockCount := c } seg i := by
    intro seg i hf l hl j hj
    obtain ⟨l0, hm, e1, e2, e3⟩ := key_mem hk hl
    rw [← e2]
    exact hf l0 hm j (by rw [e3]; exact hj)
  refine ⟨h.sz, h.suffix, ?_, hc, ?_, ?_, hr, ?_, fun x hx => (hh x hx).2.1, ?_, ?_, ?_, ?_⟩
  · show o.refCount = nt + ls.length
    rw [hlen]; exact h.refs
  · show (ls.map (·.id)).Nodup
    rw [hids]; exact h.ids
  · intro l hl
    obtain ⟨l0, hm, e1, _⟩ := key_mem hk hl
    rw [← e1]; exact h.small l0 hm
  · intro x hx
    obtain ⟨l, hl, e⟩ := (hh x hx).1
    obtain ⟨l0, hm, e1, _⟩ := key_mem hk.symm hl
    exact ⟨l0, hm, by rw [e1]; exact e⟩
  · intro hp
    have h1 := h.sorted hp
    have h2 : (o.locks.map key).Pairwise (fun a b => a.2.1 < b.2.1) := List.pairwise_map.2 h1
    rw [← hk] at h2
    have h3 := List.pairwise_map.1 h2
    exact h3
  · intro hp l hl
    obtain ⟨l0, hm, e1, e2, e3⟩ := key_mem hk hl
    obtain ⟨i, hi, hf⟩ := h.pos hp l0 hm
    rw [e3] at hi; rw [e2] at hf
    exact ⟨i, hi, hfit _ _ hf⟩
  · intro hp x hx l hl hid i hi
    obtain ⟨l0, hm, e1, e2, e3⟩ := key_mem hk hl
    exact (hh x hx).2.2 hp l0 hm (by rw [e1]; exact hid) i (by rw [e3]; exact hi)
  · intro hp hseg
    obtain ⟨m, hma, hmo⟩ := h.min hp hseg
    refine ⟨m, hma, fun l hl i hi => ?_⟩
    obtain ⟨l0, hm, e1, e2, e3⟩ := key_mem hk hl
    rw [← e2]
    exact hmo l0 hm i (by rw [e3]; exact hi)

/-- A lock on which there is no hold is taken out; its reference becomes one of `nt`. -/
theorem inv_remove {size nl nt : Nat} {hs hs' : List Hold} {o : Obj} (h : ObjInv size nl nt hs o) {l : Lock} (hl : l ∈ o.locks)
    {c : Nat} (hc : c = hs'.length) (hsub : ∀ x ∈ hs', x ∈ hs ∧ x.lock ≠ l.id)
    (hcnt : ∀ i, i ≠ l.id → hs'.countP (fun h => h.lock = i) = hs.countP (fun h => h.lock = i)) :
    ObjInv size nl (nt + 1) hs' { o with locks := o.locks.filter (fun x => x.id ≠ l.id), lockCount := c } := by
  have hsubl : (o.locks.filter (fun x => x.id ≠ l.id)).Sublist o.locks := List.filter_sublist
  have hlen : (o.locks.filter (fun x => x.id ≠ l.id)).length + 1 = o.locks.length := by
    obtain ⟨pre, post, e⟩ := List.append_of_mem hl
    have hn := h.ids
    rw [e, List.map_append, List.map_cons] at hn
    rw [List.nodup_append] at hn
    obtain ⟨_, hn2, hn3⟩ := hn
    have e1 : pre.filter (fun x => x.id ≠ l.id) = pre := by
      rw [List.filter_eq_self]
      intro x hx
      simp only [decide_eq_true_eq]
      exact hn3 _ (List.mem_map_of_mem hx) _ (List.mem_cons_self ..)
    have e2 : post.filter (fun x => x.id ≠ l.id) = post := by
      rw [List.filter_eq_self]
      intro x hx
      simp only [decide_eq_true_eq]
      intro hc
      exact (List.nodup_cons.1 hn2).1 (by rw [← hc]; exact List.mem_map_of_mem hx)
    rw [e, List.filter_append, List.filter_cons_of_neg (by simp), e1, e2]
    simp only [List.length_append, List.length_cons]
    omega
  have hfit : ∀ seg i, Fits size o seg i →
      Fits size { o with locks := o.locks.filter (fun x => x.id ≠ l.id), lockCount := c } seg i :=
    fun seg i hf x hx j hj => hf x (hsubl.subset hx) j hj
  refine ⟨h.sz, h.suffix, ?_, hc, h.ids.sublist (hsubl.map _), fun x hx => h.small x (hsubl.subset hx), ?_, ?_,
    fun x hx => h.hbase x (hsub x hx).1, fun hp => (h.sorted hp).sublist hsubl, ?_, ?_, ?_⟩
  · show o.refCount = nt + 1 + (o.locks.filter (fun x => x.id ≠ l.id)).length
    rw [h.refs]; omega
  · intro x hx
    have hne : x.id ≠ l.id := by simpa using (List.mem_filter.1 hx).2
    rw [hcnt x.id hne]
    exact h.lrefs x (hsubl.subset hx)
  · intro x hx
    obtain ⟨l', hl', e⟩ := h.hlock x (hsub x hx).1
    exact ⟨l', List.mem_filter.2 ⟨hl', by simp only [ne_eq, decide_eq_true_eq]; rw [e]; exact (hsub x hx).2⟩, e⟩
  · intro hp x hx
    obtain ⟨i, hi, hf⟩ := h.pos hp x (hsubl.subset hx)
    exact ⟨i, hi, hfit _ _ hf⟩
  · intro hp x hx l' hl' hid i hi
    exact h.hpos hp x (hsub x hx).1 l' (hsubl.subset hl') hid i hi
  · intro hp hseg
    obtain ⟨m, hma, hmo⟩ := h.min hp hseg
    exact ⟨m, hma, fun x hx i hi => hmo x (hsubl.subset hx) i hi⟩

/-! ## Lemmas: the place of a lock -/

/-- Where a lock is put. -/
theorem place_spec (np : Bool) (seg ptr : Nat) (new : Lock) : ∀ (rev after : List Lock) (r : Option Lock × List Lock),
    (np = true → after = []) → (np = false → ∀ l ∈ after, seg < l.seg) → place np seg ptr new rev after = some r →
    (∃ l pre post, r.1 = some l ∧ rev.reverse ++ after = pre ++ l :: post ∧ r.2 = pre ++ { l with refs := l.refs + 1 } :: post ∧
      (np = false → l.seg = seg ∧ l.ptr = ptr)) ∨
    (∃ pre post, r.1 = none ∧ rev.reverse ++ after = pre ++ post ∧ r.2 = pre ++ new :: post ∧
      (np = true → pre = [] ∧ post = []) ∧ (np = false → (∀ l ∈ post, seg < l.seg) ∧ ∀ l, pre.getLast? = some l → l.seg < seg))
  | [], after, r, h1, h2, h => by
    unfold place at h
    injection h with h
    subst h
    exact .inr ⟨[], after, rfl, rfl, rfl, fun hn => ⟨rfl, h1 hn⟩, fun hn => ⟨h2 hn, fun l hl => nomatch hl⟩⟩
  | l :: rev, after, r, h1, h2, h => by
    unfold place at h
    have e : (l :: rev).reverse ++ after = rev.reverse ++ l :: after := by simp
    rw [e]
    split at h
    · rename_i hn
      injection h with h
      subst h
      exact .inl ⟨l, rev.reverse, after, rfl, rfl, rfl, fun hc => by rw [hc] at hn; exact nomatch hn⟩
    · rename_i hn
      have hn : np = false := by simpa using hn
      split at h
      · rename_i hlt
        refine place_spec np seg ptr new rev (l :: after) r (fun hc => by rw [hc] at hn; exact nomatch hn) (fun _ x hx => ?_) h
        rcases List.mem_cons.1 hx with hx | hx
        · rw [hx]; exact hlt
        · exact h2 hn x hx
      · rename_i hge
        split at h
        · rename_i hgt
          injection h with h
          subst h
          refine .inr ⟨rev.reverse ++ [l], after, rfl, by simp, by simp, (fun hc => by rw [hc] at hn; exact nomatch hn), fun _ => ⟨h2 hn, ?_⟩⟩
          intro x hx
          rw [List.getLast?_append, List.getLast?_singleton] at hx
          injection hx with hx
          rw [← hx]; exact hgt
        · rename_i hle
          split at h
          · exact nomatch h
          · rename_i hptr
            injection h with h
            subst h
            exact .inl ⟨l, rev.reverse, after, rfl, rfl, rfl, fun _ => ⟨by omega, by omega⟩⟩

theorem sorted_le_last : ∀ {pre : List Lock}, pre.Pairwise (fun a b => a.seg < b.seg) → ∀ {l : Lock}, pre.getLast? = some l →
    ∀ x ∈ pre, x.seg ≤ l.seg := by
  intro pre hp l hl x hx
  obtain ⟨ys, rfl⟩ := List.getLast?_eq_some_iff.1 hl
  rcases List.mem_append.1 hx with hx | hx
  · exact Nat.le_of_lt ((List.pairwise_append.1 hp).2.2 x hx l (by simp))
  · rw [List.mem_singleton.1 hx]; exact Nat.le_refl _

/-- A new lock. -/
theorem inv_lock_new {size nl nt : Nat} {hs : List Hold} {o : Obj} (h : ObjInv size nl nt hs o) {seg ptr k : Nat} {pre post : List Lock}
    (hk : LockOk size o seg ptr k) (he : o.locks = pre ++ post)
    (h2 : o.noPartial = false → (∀ l ∈ post, seg < l.seg) ∧ ∀ l, pre.getLast? = some l → l.seg < seg) {a : Nat} :
    ObjInv size (nl + 1) nt (hs ++ [{ obj := a, lock := nl, k }])
      { o with locks := pre ++ { id := nl, seg, ptr, refs := 1 } :: post, refCount := o.refCount + 1, lockCount := o.lockCount + 1 } := by
  have hmem : ∀ l, l ∈ pre ++ { id := nl, seg, ptr, refs := 1 } :: post ↔ l = { id := nl, seg, ptr, refs := 1 } ∨ l ∈ o.locks := by
    intro l
    rw [he]
    simp only [List.mem_append, List.mem_cons]
    constructor
    · rintro (h | h | h)
      · exact .inr (.inl h)
      · exact .inl h
      · exact .inr (.inr h)
    · rintro (h | h | h)
      · exact .inr (.inl h)
      · exact .inl h
      · exact .inr (.inr h)
  have hold : ∀ x ∈ hs, x.lock < nl := by
    intro x hx
    obtain ⟨l, hl, e⟩ := h.hlock x hx
    rw [← e]; exact h.small l hl
  refine ⟨h.sz, h.suffix, ?_, ?_, ?_, ?_, ?_, ?_, ?_, ?_, ?_, ?_, ?_⟩
  · show o.refCount + 1 = nt + (pre ++ { id := nl, seg, ptr, refs := 1 } :: post).length
    rw [h.refs, he]; simp only [List.length_append, List.length_cons]; omega
  · show o.lockCount + 1 = _
    rw [h.count, List.length_append]; rfl
  · show ((pre ++ { id := nl, seg, ptr, refs := 1 } :: post).map (·.id)).Nodup
    have hn := h.ids
    rw [he, List.map_append] at hn
    rw [List.map_append, List.map_cons]
    refine (List.perm_middle.nodup_iff).2 (List.nodup_cons.2 ⟨?_, hn⟩)
    rw [← List.map_append, ← he]
    intro hc
    obtain ⟨l, hl, e⟩ := List.mem_map.1 hc
    have := h.small l hl
    dsimp only at e
    omega
  · intro l hl
    rcases (hmem l).1 hl with e | hl
    · rw [e]; exact Nat.lt_succ_self _
    · have := h.small l hl; omega
  · intro l hl
    rw [List.countP_append, List.countP_singleton]
    rcases (hmem l).1 hl with e | hl
    · subst e
      dsimp only
      rw [if_pos (by simp)]
      have : hs.countP (fun h => h.lock = nl) = 0 := by
        rw [List.countP_eq_zero]
        intro x hx
        have := hold x hx
        simp only [decide_eq_true_eq]; omega
      rw [this]; exact ⟨rfl, Nat.one_pos⟩
    · have hne : nl ≠ l.id := by have := h.small l hl; omega
      rw [if_neg (by simpa using hne), Nat.add_zero]
      exact h.lrefs l hl
  · intro x hx
    rcases List.mem_append.1 hx with hx | hx
    · obtain ⟨l, hl, e⟩ := h.hlock x hx
      exact ⟨l, (hmem l).2 (.inr hl), e⟩
    · rw [List.mem_singleton.1 hx]
      exact ⟨_, (hmem _).2 (.inl rfl), rfl⟩
  · intro x hx
    rcases List.mem_append.1 hx with hx | hx
    · exact h.hbase x hx
    · rw [List.mem_singleton.1 hx]; exact hk.1
  · intro hp
    have hs := h.sorted hp
    rw [he] at hs
    obtain ⟨h3, h4⟩ := h2 hp
    show (pre ++ { id := nl, seg, ptr, refs := 1 } :: post).Pairwise (fun a b => a.seg < b.seg)
    obtain ⟨s1, s2, s3⟩ := List.pairwise_append.1 hs
    refine List.pairwise_append.2 ⟨s1, List.pairwise_cons.2 ⟨h3, s2⟩, fun x hx y hy => ?_⟩
    rcases List.mem_cons.1 hy with e | hy
    · rw [e]
      cases hl : pre.getLast? with
      | none => rw [List.getLast?_eq_none_iff.1 hl] at hx; exact absurd hx List.not_mem_nil
      | some l => exact Nat.lt_of_le_of_lt (sorted_le_last s1 hl x hx) (h4 l hl)
    · exact s3 x hx y hy
  · intro hp l hl
    obtain ⟨i, hi, hki, hf, hm⟩ := hk.2 hp
    rcases (hmem l).1 hl with e | hl
    · subst e
      refine ⟨i, hi, fun l' hl' j hj => ?_⟩
      rcases (hmem l').1 hl' with e | hl'
      · subst e; exact ⟨fun hc => absurd hc (Nat.lt_irrefl _), fun hc => absurd hc (Nat.lt_irrefl _)⟩
      · exact hf l' hl' j hj
    · obtain ⟨j, hj, hjf⟩ := h.pos hp l hl
      refine ⟨j, hj, fun l' hl' j' hj' => ?_⟩
      rcases (hmem l').1 hl' with e | hl'
      · subst e
        have e2 : j' = i := At.unique hj' hi
        have := hf l hl j hj
        dsimp only
        rw [e2]
        exact ⟨this.2, this.1⟩
      · exact hjf l' hl' j' hj'
  · intro hp x hx l hl hid j hj
    obtain ⟨i, hi, hki, hf, hm⟩ := hk.2 hp
    rcases List.mem_append.1 hx with hx | hx
    · have := hold x hx
      rcases (hmem l).1 hl with e | hl
      · subst e; dsimp only at hid; omega
      · exact h.hpos hp x hx l hl hid j hj
    · rw [List.mem_singleton.1 hx] at hid ⊢
      rcases (hmem l).1 hl with e | hl
      · subst e
        have e2 : j = i := At.unique hj hi
        rw [e2]; show base o + i ≤ k; omega
      · have := h.small l hl
        dsimp only at hid; omega
  · intro hp hseg
    obtain ⟨i, hi, hki, hf, hm⟩ := hk.2 hp
    obtain ⟨m, hma, hmo⟩ := h.min hp hseg
    refine ⟨m, hma, fun l hl j hj => ?_⟩
    rcases (hmem l).1 hl with e | hl
    · subst e
      have e2 : j = i := At.unique hj hi
      rw [e2]; exact hm hseg m hma
    · exact hmo l hl j hj

/-- A lock that is there is used again. -/
theorem inv_lock_again {size nl nt : Nat} {hs : List Hold} {o : Obj} (h : ObjInv size nl nt hs o) {seg ptr k : Nat} {l : Lock}
    {pre post : List Lock} (hk : LockOk size o seg ptr k) (he : o.locks = pre ++ l :: post)
    (h2 : o.noPartial = false → l.seg = seg ∧ l.ptr = ptr) {a : Nat} :
    ObjInv size nl nt (hs ++ [{ obj := a, lock := l.id, k }])
      { o with locks := pre ++ { l with refs := l.refs + 1 } :: post, lockCount := o.lockCount + 1 } := by
  have hl : l ∈ o.locks := by rw [he]; simp
  have hn := h.ids
  rw [he, List.map_append, List.map_cons, List.nodup_append] at hn
  obtain ⟨_, n2, n3⟩ := hn
  refine inv_relock h (by rw [he]; simp [key]) (by rw [h.count, List.length_append]; rfl) ?_ ?_
  · intro x hx
    rw [List.countP_append, List.countP_singleton]
    rcases List.mem_append.1 hx with hx | hx
    · have hne : l.id ≠ x.id := fun hc => n3 _ (List.mem_map_of_mem hx) _ (List.mem_cons_self ..) hc.symm
      rw [if_neg (by simpa using hne), Nat.add_zero]
      exact h.lrefs x (by rw [he]; simp [hx])
    · rcases List.mem_cons.1 hx with e | hx
      · subst e
        dsimp only
        rw [if_pos (by simp)]
        exact ⟨by rw [(h.lrefs l hl).1], Nat.succ_pos _⟩
      · have hne : l.id ≠ x.id := fun hc => (List.nodup_cons.1 n2).1 (by rw [hc]; exact List.mem_map_of_mem hx)
        rw [if_neg (by simpa using hne), Nat.add_zero]
        exact h.lrefs x (by rw [he]; simp [hx])
  · intro x hx
    rcases List.mem_append.1 hx with hx | hx
    · exact ⟨h.hlock x hx, h.hbase x hx, fun hp => h.hpos hp x hx⟩
    · rw [List.mem_singleton.1 hx]
      refine ⟨⟨l, hl, rfl⟩, hk.1, fun hp l' hl' hid i hi => ?_⟩
      have : l' = l := by
        rw [he] at hl'
        dsimp only at hid
        rcases List.mem_append.1 hl' with hm | hm
        · exact absurd hid (n3 _ (List.mem_map_of_mem hm) _ (List.mem_cons_self ..))
        · rcases List.mem_cons.1 hm with e | hm
          · exact e
          · exact absurd (List.mem_map_of_mem (f := (·.id)) hm) (by
              show l'.id ∉ _
              rw [hid]; exact (List.nodup_cons.1 n2).1)
      subst this
      obtain ⟨j, hj, hkj, _⟩ := hk.2 hp
      rw [(h2 hp).2] at hi
      have e2 : i = j := At.unique hi hj
      rw [e2]; show base o + j ≤ k; omega

/-! ## Lemmas: all objects -/

theorem put_self (w : World) (a : Nat) (o : Option Obj) : (w.put a o).heap a = o := if_pos rfl

theorem put_other (w : World) {a b : Nat} (o : Option Obj) (h : b ≠ a) : (w.put a o).heap b = w.heap b := if_neg h

def nodesOf : Option Obj → List Nat
  | some o => nodes o
  | none => []

/-- Buffers of one object go back to the allocator. -/
theorem alloc_give {w : World} (h : AInv w) {a : Nat} {o : Obj} (ha : w.heap a = some o) {o' : Option Obj} {out : List Nat}
    (hp : (nodes o).Perm (nodesOf o' ++ out)) :
    ∃ held', (w.put a o').giveBack out = .ok { w.put a o' with held := held' } ∧ AInv { w.put a o' with held := held' } := by
  have hnd := (hp.nodup_iff).1 (h.nodup a o ha)
  obtain ⟨nd1, nd2, nd3⟩ := List.nodup_append.1 hnd
  have hin : ∀ x ∈ out, x ∈ nodes o := fun x hx => hp.mem_iff.2 (List.mem_append_right _ hx)
  have hin' : ∀ x ∈ nodesOf o', x ∈ nodes o := fun x hx => hp.mem_iff.2 (List.mem_append_left _ hx)
  have hall : out.all ((w.put a o').held.contains ·) = true := by
    rw [List.all_eq_true]
    intro x hx
    exact List.contains_iff_mem.2 (h.sub a o ha x (hin x hx))
  refine ⟨_, by unfold World.giveBack; rw [if_pos hall], ?_⟩
  have hof : ∀ b p, (w.put a o').heap b = some p → (b = a ∧ o' = some p) ∨ (b ≠ a ∧ w.heap b = some p) := by
    intro b p hb
    by_cases e : b = a
    · subst e; rw [put_self] at hb; exact .inl ⟨rfl, hb⟩
    · rw [put_other w _ e] at hb; exact .inr ⟨e, hb⟩
  refine ⟨?_, ?_, ?_, ?_⟩
  · intro b p hb
    rcases hof b p hb with ⟨_, e⟩ | ⟨_, e⟩
    · rw [e] at nd1; exact nd1
    · exact h.nodup b p e
  · intro b p hb x hx
    rcases hof b p hb with ⟨_, e⟩ | ⟨hne, e⟩
    · have hx' : x ∈ nodesOf o' := by rw [e]; exact hx
      refine List.mem_filter.2 ⟨h.sub a o ha x (hin' x hx'), ?_⟩
      simpa using fun hc : x ∈ out => nd3 x hx' x hc rfl
    · refine List.mem_filter.2 ⟨h.sub b p e x hx, ?_⟩
      simpa using fun hc : x ∈ out => h.sep b a p o hne e ha x hx (hin x hc)
  · intro b c p q hne hb hc x hx
    rcases hof b p hb with ⟨e1, e2⟩ | ⟨e1, e2⟩
    · rcases hof c q hc with ⟨e3, e4⟩ | ⟨e3, e4⟩
      · exact absurd (e1.trans e3.symm) hne
      · exact h.sep a c o q (fun hh => e3 hh.symm) ha e4 x (hin' x (by rw [e2]; exact hx))
    · rcases hof c q hc with ⟨e3, e4⟩ | ⟨e3, e4⟩
      · exact fun hxq => h.sep b a p o e1 e2 ha x hx (hin' x (by rw [e4]; exact hxq))
      · exact h.sep b c p q hne e2 e4 x hx
  · intro x hx
    obtain ⟨hx1, hx2⟩ := List.mem_filter.1 hx
    have hx2 : x ∉ out := by simpa using hx2
    obtain ⟨b, p, hb, hxp⟩ := h.cover x hx1
    by_cases e : b = a
    · subst e
      rw [ha] at hb
      injection hb with hb
      subst hb
      have hx3 : x ∈ nodesOf o' := (List.mem_append.1 (hp.mem_iff.1 hxp)).resolve_right hx2
      cases o' with
      | none => exact absurd hx3 List.not_mem_nil
      | some p => exact ⟨b, p, put_self .., hx3⟩
    · exact ⟨b, p, by rw [put_other _ _ e]; exact hb, hxp⟩

theorem alloc_put {w : World} (h : AInv w) {a : Nat} {o : Obj} (ha : w.heap a = some o) {o' : Obj}
    (hp : (nodes o).Perm (nodes o')) : AInv (w.put a (some o')) := by
  obtain ⟨held', e, h'⟩ := alloc_give h ha (o' := some o') (out := []) (by simpa [nodesOf] using hp)
  have e1 : (w.put a (some o')).giveBack [] = .ok (w.put a (some o')) := by
    have ef : (w.put a (some o')).held.filter (fun a => !([] : List Nat).contains a) = (w.put a (some o')).held := by
      rw [List.filter_eq_self]; intros; rfl
    unfold World.giveBack
    rw [if_pos (by rfl), ef]
  rw [e1] at e
  injection e with e
  rw [← e] at h'; exact h'

/-- Only the address, the tracks, holds, and counters matter for the rest. -/
theorem alloc_of_heap {w w' : World} (h : AInv w) (h1 : w'.heap = w.heap) (h2 : w'.held = w.held) : AInv w' := by
  obtain ⟨a, b, c, d⟩ := h
  constructor
  · rw [h1]; exact a
  · rw [h1, h2]; exact b
  · rw [h1]; exact c
  · rw [h1, h2]; exact d

/-- `freeBufs`, seen from outside. -/
theorem freeBufs_spec {size : Nat} {w : World} (h : AInv w) {a : Nat} {o0 o : Obj} (ha : w.heap a = some o0)
    (hn : nodes o = nodes o0) {nl nt : Nat} {hs : List Hold} (ho : ObjInv size nl nt hs o) :
    ∃ held' o', freeBufs w a o = .ok { w.put a (some o') with held := held' } ∧ AInv { w.put a (some o') with held := held' } ∧
      ObjInv size nl nt hs o' ∧ o'.refCount = o.refCount := by
  obtain ⟨t1, t2, t3⟩ := inv_trim ho
  obtain ⟨held', e, h'⟩ := alloc_give h ha (o' := some (trim o).1) (out := (trim o).2) (by rw [← hn]; exact t2)
  refine ⟨held', (trim o).1, ?_, h', t1, t3⟩
  rw [← e]
  cases hl : limit o with
  | none =>
    have ef : (w.put a (some o)).held.filter (fun a => !([] : List Nat).contains a) = (w.put a (some o)).held := by
      rw [List.filter_eq_self]; intros; rfl
    simp only [freeBufs, trim, hl, World.giveBack]
    rw [if_pos (by rfl), ef]
  | some p => simp only [freeBufs, trim, hl]

/-- `free`, seen from outside: one reference is given up, and with the last one the object is gone. -/
theorem free_spec {size : Nat} {w : World} (h : AInv w) {a : Nat} {o0 o : Obj} (ha : w.heap a = some o0)
    (hn : nodes o = nodes o0) {nl nt : Nat} {hs : List Hold} (ho : ObjInv size nl (nt + 1) hs o) :
    ∃ held' o', free w a o = .ok { w.put a o' with held := held' } ∧ AInv { w.put a o' with held := held' } ∧
      ((∃ p, o' = some p ∧ ObjInv size nl nt hs p ∧ 0 < p.refCount) ∨ (o' = none ∧ nt = 0 ∧ hs = [])) := by
  have hr := ho.refs
  unfold free
  rw [if_neg (by omega)]
  dsimp only
  have ho1 : ObjInv size nl nt hs { o with refCount := o.refCount - 1 } := by
    obtain ⟨h1, h2, h3, h4, h5, h6, h7, h8, h9, h10, h11, h12, h13⟩ := ho
    exact ⟨h1, h2, by show o.refCount - 1 = nt + o.locks.length; omega, h4, h5, h6, h7, h8, h9, h10, h11, h12, h13⟩
  by_cases hc : o.refCount - 1 > 0
  · rw [if_pos hc]
    obtain ⟨held', o', e, h1, h2, h3⟩ := freeBufs_spec h ha (o := { o with refCount := o.refCount - 1 }) hn ho1
    exact ⟨held', some o', e, h1, .inl ⟨o', rfl, h2, by rw [h3]; exact hc⟩⟩
  · rw [if_neg hc]
    have hl : o.locks = [] := List.length_eq_zero_iff.1 (by omega)
    rw [if_neg (by rw [hl]; simp)]
    have hs0 : hs = [] := by
      cases e : hs with
      | nil => rfl
      | cons x xs =>
        obtain ⟨l, hl', _⟩ := ho.hlock x (by rw [e]; exact List.mem_cons_self ..)
        rw [hl] at hl'; exact absurd hl' List.not_mem_nil
    obtain ⟨held', e, h'⟩ := alloc_give h ha (o' := none) (out := (BufQueue.delete o.q).2)
      (by rw [← hn]; unfold nodes nodesOf BufQueue.delete; simpa using List.perm_append_comm)
    exact ⟨held', none, e, h', .inr ⟨rfl, by omega, hs0⟩⟩

theorem ObjInv.mono {size nl nl' nt : Nat} {hs : List Hold} {o : Obj} (h : ObjInv size nl nt hs o) (hn : nl ≤ nl') :
    ObjInv size nl' nt hs o := by
  obtain ⟨h1, h2, h3, h4, h5, h6, h7, h8, h9, h10, h11, h12, h13⟩ := h
  exact ⟨h1, h2, h3, h4, h5, fun l hl => Nat.lt_of_lt_of_le (h6 l hl) hn, h7, h8, h9, h10, h11, h12, h13⟩

/-- One object changes. -/
theorem inv_change {size : Nat} {w w' : World} (h : Inv size w) {a : Nat} {o' : Option Obj} (hh : w'.heap = (w.put a o').heap)
    (ha : a < w'.nextObj) (hno : w.nextObj ≤ w'.nextObj) (hnl : w.nextLock ≤ w'.nextLock) (hnames : (w'.tracks.map (·.1)).Nodup)
    (hal : AInv w') (hnt : ∀ b, b ≠ a → nt w' b = nt w b) (hhs : ∀ b, b ≠ a → hs w' b = hs w b)
    (ho : (∃ p, o' = some p ∧ ObjInv size w'.nextLock (nt w' a) (hs w' a) p ∧ 0 < p.refCount) ∨
      (o' = none ∧ nt w' a = 0 ∧ hs w' a = [])) : Inv size w' := by
  have hof : ∀ b p, w'.heap b = some p → (b = a ∧ o' = some p) ∨ (b ≠ a ∧ w.heap b = some p) := by
    intro b p hb
    rw [hh] at hb
    by_cases e : b = a
    · subst e; rw [put_self] at hb; exact .inl ⟨rfl, hb⟩
    · rw [put_other w _ e] at hb; exact .inr ⟨e, hb⟩
  have hlive : ∀ b, (b ≠ a → ∃ o, w.heap b = some o) → (b = a → o' ≠ none) → ∃ o, w'.heap b = some o := by
    intro b h1 h2
    rw [hh]
    by_cases e : b = a
    · subst e
      rw [put_self]
      cases o' with
      | none => exact absurd rfl (h2 rfl)
      | some p => exact ⟨p, rfl⟩
    · rw [put_other w _ e]; exact h1 e
  refine ⟨?_, ?_, ?_, ?_, hnames, ?_, hal⟩
  · intro b p hb
    rcases hof b p hb with ⟨e1, e2⟩ | ⟨e1, e2⟩
    · subst e1
      rcases ho with ⟨p', e3, h1, _⟩ | ⟨e3, _⟩
      · rw [e2] at e3; injection e3 with e3; rw [e3]; exact h1
      · rw [e2] at e3; exact nomatch e3
    · rw [hnt b e1, hhs b e1]
      exact (h.objs b p e2).mono hnl
  · intro b p hb
    rcases hof b p hb with ⟨e1, e2⟩ | ⟨e1, e2⟩
    · rw [e1]; exact ha
    · exact Nat.lt_of_lt_of_le (h.small b p e2) hno
  · intro x hx
    refine hlive x.obj (fun hne => ?_) (fun he hc => ?_)
    · have : x ∈ hs w' x.obj := List.mem_filter.2 ⟨hx, by simp⟩
      rw [hhs _ hne] at this
      exact h.holds x (List.mem_filter.1 this).1
    · rcases ho with ⟨p, e, _⟩ | ⟨_, _, e⟩
      · rw [e] at hc; exact nomatch hc
      · have : x ∈ hs w' a := List.mem_filter.2 ⟨hx, by simpa using he⟩
        rw [e] at this; exact absurd this List.not_mem_nil
  · intro x hx
    refine hlive x.2 (fun hne => ?_) (fun he hc => ?_)
    · have : 0 < nt w' x.2 := List.countP_pos_iff.2 ⟨x, hx, by simp⟩
      rw [hnt _ hne] at this
      obtain ⟨y, hy, e⟩ := List.countP_pos_iff.1 this
      have e : y.2 = x.2 := by simpa using e
      rw [← e]; exact h.live y hy
    · rcases ho with ⟨p, e, _⟩ | ⟨_, e, _⟩
      · rw [e] at hc; exact nomatch hc
      · have : 0 < nt w' a := List.countP_pos_iff.2 ⟨x, hx, by simpa using he⟩
        omega
  · intro b p hb
    rcases hof b p hb with ⟨e1, e2⟩ | ⟨e1, e2⟩
    · rcases ho with ⟨p', e3, _, h1⟩ | ⟨e3, _⟩
      · rw [e2] at e3; injection e3 with e3; rw [e3]; exact h1
      · rw [e2] at e3; exact nomatch e3
    · exact h.pos b p e2

theorem track_mem {w : World} (hn : (w.tracks.map (·.1)).Nodup) {t a : Nat} : w.track t = some a ↔ (t, a) ∈ w.tracks := by
  unfold World.track
  generalize w.tracks = l at hn
  induction l with
  | nil => simp
  | cons p rest ih =>
    rw [List.map_cons, List.nodup_cons] at hn
    rw [List.find?_cons]
    by_cases e : p.1 = t
    · simp only [e, decide_true, Option.map_some, Option.some.injEq, List.mem_cons]
      constructor
      · intro h; left; rw [← e, ← h]
      · rintro (h | h)
        · rw [← h]
        · exact absurd (List.mem_map_of_mem (f := (·.1)) h) (by rw [← e]; exact hn.1)
    · simp only [e, decide_false, List.mem_cons]
      rw [ih hn.2]
      constructor
      · exact .inr
      · rintro (h | h)
        · exact absurd (by rw [← h]) e
        · exact h

/-! ## Every call keeps the invariant -/

theorem hs_of {w : World} {pre post : List Hold} {x : Hold} (h : w.holds = pre ++ x :: post) (b : Nat) :
    hs w b = if x.obj = b then pre.filter (fun h => h.obj = b) ++ x :: post.filter (fun h => h.obj = b)
      else pre.filter (fun h => h.obj = b) ++ post.filter (fun h => h.obj = b) := by
  unfold hs
  rw [h, List.filter_append, List.filter_cons]
  by_cases e : x.obj = b
  · simp [e]
  · simp [e]

theorem hs_off {w : World} {pre post : List Hold} (h : w.holds = pre ++ post) (b : Nat) :
    hs w b = pre.filter (fun h => h.obj = b) ++ post.filter (fun h => h.obj = b) := by
  unfold hs
  rw [h, List.filter_append]

theorem nt_of {w : World} {pre post : List (Nat × Nat)} {x : Nat × Nat} (h : w.tracks = pre ++ x :: post) (b : Nat) :
    nt w b = pre.countP (fun p => p.2 = b) + post.countP (fun p => p.2 = b) + if x.2 = b then 1 else 0 := by
  unfold nt
  rw [h, List.countP_append, List.countP_cons]
  by_cases e : x.2 = b <;> simp [e] <;> omega

theorem nt_off {w : World} {pre post : List (Nat × Nat)} (h : w.tracks = pre ++ post) (b : Nat) :
    nt w b = pre.countP (fun p => p.2 = b) + post.countP (fun p => p.2 = b) := by
  unfold nt
  rw [h, List.countP_append]

/-- The list of tracks around a track. -/
theorem split_track {l : List (Nat × Nat)} (hn : (l.map (·.1)).Nodup) {t a : Nat} (hm : (t, a) ∈ l) :
    ∃ pre post, l = pre ++ (t, a) :: post ∧ l.filter (fun p => p.1 ≠ t) = pre ++ post ∧
      (∀ b, l.map (fun p => if p.1 = t then (t, b) else p) = pre ++ (t, b) :: post) ∧ ((pre ++ post).map (·.1)).Nodup ∧
      (∀ p ∈ pre ++ post, p.1 ≠ t) := by
  obtain ⟨pre, post, e⟩ := List.append_of_mem hm
  subst e
  rw [List.map_append, List.map_cons] at hn
  have hn' := (List.perm_middle.nodup_iff).1 hn
  rw [List.nodup_cons, ← List.map_append] at hn'
  have hne : ∀ p ∈ pre ++ post, p.1 ≠ t := fun p hp hc => hn'.1 (by
    show t ∈ _
    rw [← hc]; exact List.mem_map_of_mem hp)
  refine ⟨pre, post, rfl, ?_, fun b => ?_, hn'.2, hne⟩
  · rw [List.filter_append, List.filter_cons_of_neg (by simp)]
    rw [List.filter_eq_self.2 (fun p hp => by simpa using hne p (List.mem_append_left _ hp)),
      List.filter_eq_self.2 (fun p hp => by simpa using hne p (List.mem_append_right _ hp))]
  · rw [List.map_append, List.map_cons, if_pos rfl]
    have e1 : pre.map (fun p => if p.1 = t then (t, b) else p) = pre := by
      conv => rhs; rw [← List.map_id pre]
      exact List.map_congr_left fun p hp => if_neg (hne p (List.mem_append_left _ hp))
    have e2 : post.map (fun p => if p.1 = t then (t, b) else p) = post := by
      conv => rhs; rw [← List.map_id post]
      exact List.map_congr_left fun p hp => if_neg (hne p (List.mem_append_right _ hp))
    rw [e1, e2]

theorem inv_setMin {size : Nat} {w : World} (h : Inv size w) {t seg ptr a : Nat} {o : Obj} (ht : (t, a) ∈ w.tracks)
    (ha : w.heap a = some o) (hm : MinOk size o seg ptr) : ∃ w', setMinUsed w t seg ptr = .ok w' ∧ Inv size w' := by
  unfold setMinUsed
  rw [(track_mem h.names).2 ht]
  dsimp only
  rw [ha]
  dsimp only
  have ho := h.objs a o ha
  have ho' : ObjInv size w.nextLock (nt w a) (hs w a) { o with minSeg := seg, minPtr := ptr } := by
    obtain ⟨h1, h2, h3, h4, h5, h6, h7, h8, h9, h10, h11, h12, h13⟩ := ho
    exact ⟨h1, h2, h3, h4, h5, h6, h7, h8, h9, h10, h11, h12, hm⟩
  obtain ⟨held', o', e, h1, h2, h3⟩ := freeBufs_spec h.alloc ha (o := { o with minSeg := seg, minPtr := ptr }) rfl ho'
  exact ⟨_, e, inv_change h (a := a) (o' := some o') rfl (h.small a o ha) (Nat.le_refl _) (Nat.le_refl _) h.names h1
    (fun _ _ => rfl) (fun _ _ => rfl) (.inl ⟨o', rfl, h2, by rw [h3]; exact h.pos a o ha⟩)⟩

theorem inv_detach {size nl nt : Nat} {hs : List Hold} {o : Obj} (h : ObjInv size nl nt hs o) :
    ObjInv size nl nt hs { o with q := BufQueue.detach o.q } := inv_queue h rfl h.sz

theorem inv_channelFree {size : Nat} {w : World} (h : Inv size w) (a : Nat) : ∃ w', channelFree w a = .ok w' ∧ Inv size w' := by
  unfold channelFree
  cases ha : w.heap a with
  | none => exact ⟨w, rfl, h⟩
  | some o =>
    exact ⟨_, rfl, inv_change h (a := a) (o' := some { o with q := BufQueue.detach o.q }) rfl (h.small a o ha) (Nat.le_refl _)
      (Nat.le_refl _) h.names (alloc_put h.alloc ha (.refl _)) (fun _ _ => rfl) (fun _ _ => rfl)
      (.inl ⟨_, rfl, inv_detach (h.objs a o ha), h.pos a o ha⟩)⟩

/-- A track gives up its object. -/
theorem inv_giveUp {size : Nat} {w : World} (h : Inv size w) {t a : Nat} {o : Obj} (ha : w.heap a = some o)
    {pre post : List (Nat × Nat)} (hs1 : w.tracks = pre ++ (t, a) :: post) (hn : ((pre ++ post).map (·.1)).Nodup) {o1 : Obj}
    (hn1 : nodes o1 = nodes o) (ho1 : ObjInv size w.nextLock (nt w a) (hs w a) o1) :
    ∃ held' o', free w a o1 = .ok { w.put a o' with held := held' } ∧
      Inv size { w.put a o' with held := held', tracks := pre ++ post } := by
  have hnt := nt_of hs1 a
  rw [if_pos rfl] at hnt
  rw [hnt] at ho1
  obtain ⟨held', o', e, h1, h2⟩ := free_spec h.alloc ha hn1 ho1
  refine ⟨held', o', e, ?_⟩
  refine inv_change h (a := a) (o' := o') rfl (h.small a o ha) (Nat.le_refl _) (Nat.le_refl _) hn (alloc_of_heap h1 rfl rfl)
    (fun b hb => ?_) (fun _ _ => rfl) ?_
  · rw [nt_of hs1 b, if_neg (fun e => hb e.symm)]
    exact nt_off rfl b
  · have e : nt { w.put a o' with held := held', tracks := pre ++ post } a =
      pre.countP (fun p => p.2 = a) + post.countP (fun p => p.2 = a) := nt_off rfl a
    rw [e]; exact h2

theorem inv_trackFree {size : Nat} {w : World} (h : Inv size w) (t : Nat) : ∃ w', trackFree w t = .ok w' ∧ Inv size w' := by
  unfold trackFree
  cases ht : w.track t with
  | none => exact ⟨w, rfl, h⟩
  | some a =>
    have hm := (track_mem h.names).1 ht
    obtain ⟨o, ha⟩ := h.live _ hm
    dsimp only at ha ⊢
    rw [ha]
    dsimp only
    obtain ⟨pre, post, s1, s2, s3, s4, s5⟩ := split_track h.names hm
    obtain ⟨held', o', e, hi⟩ := inv_giveUp h ha s1 s4 (o1 := { o with q := BufQueue.detach o.q }) rfl (inv_detach (h.objs a o ha))
    rw [e]
    refine ⟨_, rfl, ?_⟩
    have e2 : (World.put w a o').tracks.filter (fun p => p.1 ≠ t) = pre ++ post := s2
    dsimp only
    rw [e2]
    exact hi

theorem inv_link {size : Nat} {w : World} (h : Inv size w) {dst src a b : Nat} (hne : dst ≠ src) (hd : (dst, b) ∈ w.tracks)
    (hsr : (src, a) ∈ w.tracks) : ∃ w', link w dst src = .ok w' ∧ Inv size w' := by
  unfold link
  rw [(track_mem h.names).2 hd, (track_mem h.names).2 hsr]
  dsimp only
  obtain ⟨o, hb⟩ := h.live _ hd
  dsimp only at hb
  rw [hb]
  dsimp only
  obtain ⟨pre, post, s1, s2, s3, s4, s5⟩ := split_track h.names hd
  obtain ⟨held', o', e, hi⟩ := inv_giveUp h hb s1 s4 rfl (h.objs b o hb)
  rw [e]
  dsimp only
  have hsr' : (src, a) ∈ pre ++ post := by
    rw [s1] at hsr
    rcases List.mem_append.1 hsr with h1 | h1
    · exact List.mem_append_left _ h1
    · rcases List.mem_cons.1 h1 with e | h1
      · injection e with e; exact absurd e.symm hne
      · exact List.mem_append_right _ h1
  obtain ⟨s, hs⟩ := hi.live _ hsr'
  dsimp only at hs
  rw [hs]
  dsimp only
  have e2 : (World.put w b o').tracks.map (fun p => if p.1 = dst then (dst, a) else p) = pre ++ (dst, a) :: post := s3 a
  refine ⟨_, rfl, ?_⟩
  rw [e2]
  refine inv_change hi (a := a) (o' := some { s with refCount := s.refCount + 1, noPartial := true }) rfl (hi.small a s hs)
    (Nat.le_refl _) (Nat.le_refl _) ?_ ?_ (fun c hc => ?_) (fun _ _ => rfl) (.inl ⟨_, rfl, ?_, Nat.succ_pos _⟩)
  · show ((pre ++ (dst, a) :: post).map (·.1)).Nodup
    have := h.names
    rw [s1, List.map_append, List.map_cons] at this
    rw [List.map_append, List.map_cons]; exact this
  · exact alloc_of_heap (alloc_put hi.alloc hs (o' := { s with refCount := s.refCount + 1, noPartial := true }) (.refl _)) rfl rfl
  · rw [nt_of (pre := pre) (post := post) (x := (dst, a)) rfl c, if_neg (fun e => hc e.symm)]
    exact (nt_off rfl c).symm
  · obtain ⟨h1, h2, h3, h4, h5, h6, h7, h8, h9, h10, h11, h12, h13⟩ := hi.objs a s hs
    refine ⟨h1, h2, ?_, h4, h5, h6, h7, h8, h9, (fun hc => nomatch hc), (fun hc => nomatch hc), (fun hc => nomatch hc), (fun hc => nomatch hc)⟩
    show s.refCount + 1 = nt _ a + s.locks.length
    rw [nt_of (pre := pre) (post := post) (x := (dst, a)) rfl a, if_pos rfl, h3, nt_off (pre := pre) (post := post) rfl a]
    omega

theorem inv_lock {size : Nat} {w : World} (h : Inv size w) {t seg ptr k a : Nat} {alloc : Bool} {o : Obj} (ht : (t, a) ∈ w.tracks)
    (ha : w.heap a = some o) (hk : LockOk size o seg ptr k) {maxFree : Nat} :
    ∃ w', step size maxFree w (.lock t seg ptr alloc k) = .ok w' ∧ Inv size w' := by
  have ho := h.objs a o ha
  have hsame : ∀ (w' : World) (x : Hold), w'.holds = w.holds ++ [x] → x.obj = a → (∀ b, b ≠ a → hs w' b = hs w b) ∧
      hs w' a = hs w a ++ [x] := by
    intro w' x e hx
    unfold hs
    rw [e]
    refine ⟨fun b hb => ?_, ?_⟩
    · rw [List.filter_append, List.filter_cons_of_neg (by simpa [hx] using fun e => hb e.symm)]; simp
    · rw [List.filter_append, List.filter_cons_of_pos (by simpa using hx)]; rfl
  have ht' := (track_mem h.names).2 ht
  cases hp : place o.noPartial seg ptr { id := w.nextLock, seg, ptr, refs := 1 } o.locks.reverse [] with
  | none => exact ⟨w, by simp only [step, lock, ht', ha, hp], h⟩
  | some r =>
    have hsp := place_spec o.noPartial seg ptr { id := w.nextLock, seg, ptr, refs := 1 } o.locks.reverse [] r (fun _ => rfl)
      (fun _ l hl => absurd hl List.not_mem_nil) hp
    rw [List.reverse_reverse, List.append_nil] at hsp
    obtain ⟨r1, r2⟩ := r
    rcases hsp with ⟨l, pre, post, e1, e2, e3, e4⟩ | ⟨pre, post, e1, e2, e3, e4, e5⟩
    · dsimp only at e1 e3
      subst e1 e3
      refine ⟨_, by simp only [step, lock, ht', ha, hp]; rfl, ?_⟩
      obtain ⟨n1, n2⟩ := hsame { w.put a (some { o with locks := pre ++ { l with refs := l.refs + 1 } :: post, lockCount := o.lockCount + 1 })
        with holds := w.holds ++ [{ obj := a, lock := l.id, k }] } _ rfl rfl
      refine inv_change h (a := a) (o' := some { o with locks := pre ++ { l with refs := l.refs + 1 } :: post, lockCount := o.lockCount + 1 })
        rfl (h.small a o ha) (Nat.le_refl _) (Nat.le_refl _) h.names ?_ (fun _ _ => rfl) n1 (.inl ⟨_, rfl, ?_, h.pos a o ha⟩)
      · exact alloc_of_heap (alloc_put h.alloc ha
          (o' := { o with locks := pre ++ { l with refs := l.refs + 1 } :: post, lockCount := o.lockCount + 1 }) (.refl _)) rfl rfl
      · show ObjInv size w.nextLock (nt w a) (hs _ a) _
        have hz := inv_lock_again (a := a) ho hk e2 e4
        rw [← n2] at hz
        exact hz
    · dsimp only at e1 e3
      subst e1 e3
      cases alloc with
      | false => exact ⟨w, by simp [step, lock, ht', ha, hp], h⟩
      | true =>
        refine ⟨_, by simp only [step, lock, ht', ha, hp, if_true]; rfl, ?_⟩
        obtain ⟨n1, n2⟩ := hsame { w.put a (some { o with locks := pre ++ { id := w.nextLock, seg, ptr, refs := 1 } :: post,
                                                          refCount := o.refCount + 1, lockCount := o.lockCount + 1 })
          with nextLock := w.nextLock + 1, holds := w.holds ++ [{ obj := a, lock := w.nextLock, k }] } _ rfl rfl
        refine inv_change h (a := a) (o' := some { o with locks := pre ++ { id := w.nextLock, seg, ptr, refs := 1 } :: post,
                                                          refCount := o.refCount + 1, lockCount := o.lockCount + 1 })
          rfl (h.small a o ha) (Nat.le_refl _) (Nat.le_succ _) h.names ?_ (fun _ _ => rfl) n1 (.inl ⟨_, rfl, ?_, Nat.succ_pos _⟩)
        · exact alloc_of_heap (alloc_put h.alloc ha
            (o' := { o with locks := pre ++ { id := w.nextLock, seg, ptr, refs := 1 } :: post,
                            refCount := o.refCount + 1, lockCount := o.lockCount + 1 }) (.refl _)) rfl rfl
        · show ObjInv size (w.nextLock + 1) (nt w a) (hs _ a) _
          have hz := inv_lock_new (a := a) ho hk e2 e5
          rw [← n2] at hz
          exact hz

theorem find_lock {ls : List Lock} {l : Lock} {i : Nat} (hl : l ∈ ls) (e : l.id = i) (hn : (ls.map (·.id)).Nodup) :
    ls.find? (fun l => l.id = i) = some l := by
  induction ls with
  | nil => exact absurd hl List.not_mem_nil
  | cons x xs ih =>
    rw [List.map_cons, List.nodup_cons] at hn
    rw [List.find?_cons]
    rcases List.mem_cons.1 hl with h | h
    · subst h; simp [e]
    · have : x.id ≠ i := fun hc => hn.1 (by rw [hc, ← e]; exact List.mem_map_of_mem h)
      simp only [this, decide_false]
      exact ih h hn.2

theorem inv_unlock {size : Nat} {w : World} (h : Inv size w) {i : Nat} {x : Hold} (hx : w.holds[i]? = some x) :
    ∃ w1, unlock w x.obj x.lock = .ok w1 ∧ Inv size { w1 with holds := w1.holds.eraseIdx i } := by
  obtain ⟨hi, hxi⟩ := List.getElem?_eq_some_iff.1 hx
  have hmem : x ∈ w.holds := by rw [← hxi]; exact List.getElem_mem hi
  have hsplit : w.holds = w.holds.take i ++ x :: w.holds.drop (i + 1) := by
    rw [← hxi, ← List.drop_eq_getElem_cons hi, List.take_append_drop]
  have herase : w.holds.eraseIdx i = w.holds.take i ++ w.holds.drop (i + 1) := List.eraseIdx_eq_take_drop_succ ..
  generalize w.holds.take i = pre at hsplit herase
  generalize w.holds.drop (i + 1) = post at hsplit herase
  obtain ⟨o, ha⟩ := h.holds x hmem
  generalize hxo : x.obj = a at ha
  have ho := h.objs a o ha
  have hhs := hs_of hsplit a
  rw [if_pos hxo] at hhs
  have hho : ∀ b, b ≠ a → hs w b = pre.filter (fun h => h.obj = b) ++ post.filter (fun h => h.obj = b) := by
    intro b hb
    rw [hs_of hsplit b, if_neg (fun e => hb (by rw [← e, ← hxo]))]
  obtain ⟨l, hl, hid⟩ := ho.hlock x (by rw [hhs]; simp)
  obtain ⟨hr, hpos⟩ := ho.lrefs l hl
  rw [hhs] at ho
  generalize hA : pre.filter (fun h => h.obj = a) = A at ho hhs
  generalize hB : post.filter (fun h => h.obj = a) = B at ho hhs
  rw [hhs] at hr
  have hcx : ∀ j, (A ++ x :: B).countP (fun h => h.lock = j) = (A ++ B).countP (fun h => h.lock = j) + if x.lock = j then 1 else 0 := by
    intro j
    rw [List.countP_append, List.countP_append, List.countP_cons]
    by_cases e : x.lock = j <;> simp [e] <;> omega
  unfold unlock
  rw [ha]
  dsimp only
  rw [find_lock hl hid ho.ids]
  dsimp only
  rw [if_neg (by omega)]
  have hcount : o.lockCount - 1 = (A ++ B).length := by
    rw [ho.count]; simp only [List.length_append, List.length_cons]; omega
  have hnts : ∀ (w' : World), w'.holds = pre ++ post → (∀ b, b ≠ a → hs w' b = hs w b) ∧ hs w' a = A ++ B := by
    intro w' e
    refine ⟨fun b hb => ?_, ?_⟩
    · rw [hho b hb, hs_off e b]
    · rw [hs_off e a, hA, hB]
  by_cases hc : l.refs - 1 > 0
  · rw [if_pos hc]
    refine ⟨_, rfl, ?_⟩
    have e1 : (w.put a (some { o with lockCount := o.lockCount - 1, locks := (o.locks.map
        (fun y => if y.id = x.lock then { y with refs := y.refs - 1 } else y)) })).holds.eraseIdx i = pre ++ post := herase
    rw [e1]
    obtain ⟨n1, n2⟩ := hnts { w.put a (some { o with lockCount := o.lockCount - 1, locks := (o.locks.map
        (fun y => if y.id = x.lock then { y with refs := y.refs - 1 } else y)) }) with holds := pre ++ post } rfl
    refine inv_change h (a := a) (o' := some { o with lockCount := o.lockCount - 1, locks := (o.locks.map
        (fun y => if y.id = x.lock then { y with refs := y.refs - 1 } else y)) }) rfl (h.small a o ha) (Nat.le_refl _)
        (Nat.le_refl _) h.names ?_ (fun _ _ => rfl) n1 (.inl ⟨_, rfl, ?_, h.pos a o ha⟩)
    · exact alloc_of_heap (alloc_put h.alloc ha (o' := { o with lockCount := o.lockCount - 1, locks := (o.locks.map
        (fun y => if y.id = x.lock then { y with refs := y.refs - 1 } else y)) }) (.refl _)) rfl rfl
    · show ObjInv size w.nextLock (nt w a) (hs _ a) _
      rw [show hs _ a = _ from n2]
      refine inv_relock ho ?_ hcount ?_ ?_
      · rw [List.map_map]
        refine List.map_congr_left fun y _ => ?_
        show key (if y.id = x.lock then { y with refs := y.refs - 1 } else y) = key y
        split <;> rfl
      · intro y hy
        obtain ⟨y0, hy0, e⟩ := List.mem_map.1 hy
        have h0 := ho.lrefs y0 hy0
        rw [hcx y0.id] at h0
        by_cases ey : y0.id = x.lock
        · rw [if_pos ey] at e
          subst e
          dsimp only
          rw [if_pos ey.symm] at h0
          have : y0 = l := by
            have f1 := find_lock hy0 ey ho.ids
            have f2 := find_lock hl hid ho.ids
            rw [f1] at f2; injection f2
          subst this
          exact ⟨by omega, hc⟩
        · rw [if_neg ey] at e
          subst e
          rw [if_neg (fun e => ey e.symm)] at h0
          exact h0
      · intro y hy
        have hy' : y ∈ A ++ x :: B := by
          rcases List.mem_append.1 hy with h1 | h1
          · exact List.mem_append_left _ h1
          · exact List.mem_append_right _ (List.mem_cons_of_mem _ h1)
        exact ⟨ho.hlock y hy', ho.hbase y hy', fun hp => ho.hpos hp y hy'⟩
  · rw [if_neg hc]
    have hone : (A ++ B).countP (fun h => h.lock = l.id) = 0 := by
      rw [hcx l.id, if_pos hid.symm] at hr
      omega
    have hrem := inv_remove ho hl (hs' := A ++ B) hcount (fun y hy => by
        refine ⟨?_, ?_⟩
        · rcases List.mem_append.1 hy with h1 | h1
          · exact List.mem_append_left _ h1
          · exact List.mem_append_right _ (List.mem_cons_of_mem _ h1)
        · have := List.countP_eq_zero.1 hone y hy
          simpa using this)
      (fun j hj => by rw [hcx j, if_neg (fun e => hj (by rw [← e, ← hid])), Nat.add_zero])
    rw [hid] at hrem
    obtain ⟨held', o', e, h1, h2⟩ := free_spec h.alloc ha
      (o := { o with lockCount := o.lockCount - 1, locks := o.locks.filter (fun y => y.id ≠ x.lock) }) rfl hrem
    refine ⟨_, e, ?_⟩
    have e1 : (w.put a o').holds.eraseIdx i = pre ++ post := herase
    rw [e1]
    obtain ⟨n1, n2⟩ := hnts { w.put a o' with held := held', holds := pre ++ post } rfl
    refine inv_change h (a := a) (o' := o') rfl (h.small a o ha) (Nat.le_refl _) (Nat.le_refl _) h.names
      (alloc_of_heap h1 rfl rfl) (fun _ _ => rfl) n1 ?_
    rw [show hs _ a = _ from n2]
    exact h2

theorem inv_trackInit {size maxFree : Nat} {w : World} (h : Inv size w) {t : Nat} (ht : ∀ p ∈ w.tracks, p.1 ≠ t) :
    (trackInit w size maxFree t = .err ∧ size ≤ BufQueue.hdr) ∨ ∃ w', trackInit w size maxFree t = .ok w' ∧ Inv size w' := by
  by_cases hz : size ≤ BufQueue.hdr
  · exact .inl ⟨by unfold trackInit create BufQueue.init; rw [if_pos hz], hz⟩
  · right
    unfold trackInit create BufQueue.init
    rw [if_neg hz]
    refine ⟨_, rfl, ?_⟩
    have hnone : w.heap w.nextObj = none := by
      cases e : w.heap w.nextObj with
      | none => rfl
      | some o => exact absurd (h.small _ o e) (Nat.lt_irrefl _)
    have hnt0 : nt w w.nextObj = 0 := by
      unfold nt
      rw [List.countP_eq_zero]
      intro p hp
      obtain ⟨o, ho⟩ := h.live p hp
      have := h.small _ o ho
      simp only [decide_eq_true_eq]; omega
    have hhs0 : hs w w.nextObj = [] := by
      unfold hs
      rw [List.filter_eq_nil_iff]
      intro x hx
      obtain ⟨o, ho⟩ := h.holds x hx
      have := h.small _ o ho
      simp only [decide_eq_true_eq]; omega
    refine inv_change h (a := w.nextObj) (o' := some _) rfl (Nat.lt_succ_self _) (Nat.le_succ _) (Nat.le_refl _) ?_ ?_ (fun b hb => ?_)
      (fun _ _ => rfl) (.inl ⟨_, rfl, ?_, Nat.one_pos⟩)
    · show ((w.tracks ++ [(t, w.nextObj)]).map (·.1)).Nodup
      rw [List.map_append, List.map_singleton]
      refine List.nodup_append.2 ⟨h.names, by simp, fun x hx y hy => ?_⟩
      obtain ⟨p, hp, e⟩ := List.mem_map.1 hx
      rw [List.mem_singleton.1 hy, ← e]
      exact ht p hp
    · have hof : ∀ (o : Obj) b p, (w.put w.nextObj (some o)).heap b = some p → (b = w.nextObj ∧ o = p) ∨ w.heap b = some p := by
        intro o b p hb
        by_cases e : b = w.nextObj
        · subst e; rw [put_self] at hb; injection hb with hb; exact .inl ⟨rfl, hb⟩
        · rw [put_other w _ e] at hb; exact .inr hb
      obtain ⟨h1, h2, h3, h4⟩ := h.alloc
      refine ⟨?_, ?_, ?_, ?_⟩
      · intro b p hb
        rcases hof _ b p hb with ⟨_, e⟩ | e
        · rw [← e]; exact List.nodup_nil
        · exact h1 b p e
      · intro b p hb x hx
        rcases hof _ b p hb with ⟨_, e⟩ | e
        · rw [← e] at hx; exact absurd hx List.not_mem_nil
        · exact h2 b p e x hx
      · intro b c p q hne hb hc x hx
        rcases hof _ b p hb with ⟨_, e⟩ | e
        · rw [← e] at hx; exact absurd hx List.not_mem_nil
        · rcases hof _ c q hc with ⟨_, e'⟩ | e'
          · rw [← e']; exact List.not_mem_nil
          · exact h3 b c p q hne e e' x hx
      · intro x hx
        obtain ⟨b, p, hb, hxp⟩ := h4 x hx
        refine ⟨b, p, ?_, hxp⟩
        have hne : b ≠ w.nextObj := fun e => by rw [e, hnone] at hb; exact nomatch hb
        exact (put_other w _ hne).trans hb
    · show nt _ b = nt w b
      unfold nt
      show (w.tracks ++ [(t, w.nextObj)]).countP _ = _
      rw [List.countP_append, List.countP_singleton, if_neg (by simpa using fun e => hb e.symm), Nat.add_zero]
    · have e1 : nt { w.put w.nextObj (some { q := { allocSize := size, used := [], free := [], freeLeft := maxFree, nbuffers := 0, memLeft := 0, attached := true }, locks := [], refCount := 1, lockCount := 0, minSeg := 0, minPtr := 0, noPartial := false, got := [] }) with nextObj := w.nextObj + 1, tracks := w.tracks ++ [(t, w.nextObj)] } w.nextObj = 1 := by
        unfold nt at hnt0 ⊢
        show (w.tracks ++ [(t, w.nextObj)]).countP _ = _
        rw [List.countP_append, List.countP_singleton, hnt0, if_pos (by simp)]
      show ObjInv size w.nextLock (nt _ _) (hs _ _) _
      refine ⟨rfl, List.suffix_rfl, ?_, ?_, by simp, by simp, by simp, ?_, ?_, by simp, by simp, ?_, ?_⟩
      · exact e1.symm
      · show 0 = (hs w w.nextObj).length
        rw [hhs0]; rfl
      · intro x hx; exact absurd (show x ∈ hs w w.nextObj from hx) (by rw [hhs0]; exact List.not_mem_nil)
      · intro x hx; exact absurd (show x ∈ hs w w.nextObj from hx) (by rw [hhs0]; exact List.not_mem_nil)
      · intro _ x hx; exact absurd (show x ∈ hs w w.nextObj from hx) (by rw [hhs0]; exact List.not_mem_nil)
      · intro _ hc; exact absurd hc (Nat.lt_irrefl _)

/-- A new buffer from the allocator. -/
theorem alloc_new {w : World} (h : AInv w) {a b : Nat} {o o' : Obj} (ha : w.heap a = some o) (hb : b ∉ w.held)
    (hn : (nodes o').Perm (b :: nodes o)) : AInv { w.put a (some o') with held := b :: w.held } := by
  have hof : ∀ c p, (w.put a (some o')).heap c = some p → (c = a ∧ o' = p) ∨ (c ≠ a ∧ w.heap c = some p) := by
    intro c p hc
    by_cases e : c = a
    · subst e; rw [put_self] at hc; injection hc with hc; exact .inl ⟨rfl, hc⟩
    · rw [put_other w _ e] at hc; exact .inr ⟨e, hc⟩
  have hbo : ∀ c p, w.heap c = some p → b ∉ nodes p := fun c p hc hx => hb (h.sub c p hc b hx)
  refine ⟨?_, ?_, ?_, ?_⟩
  · intro c p hc
    rcases hof c p hc with ⟨_, e⟩ | ⟨_, e⟩
    · rw [← e, hn.nodup_iff]
      exact List.nodup_cons.2 ⟨hbo a o ha, h.nodup a o ha⟩
    · exact h.nodup c p e
  · intro c p hc x hx
    rcases hof c p hc with ⟨_, e⟩ | ⟨_, e⟩
    · rw [← e, hn.mem_iff] at hx
      rcases List.mem_cons.1 hx with e | hx
      · rw [e]; exact List.mem_cons_self ..
      · exact List.mem_cons_of_mem _ (h.sub a o ha x hx)
    · exact List.mem_cons_of_mem _ (h.sub c p e x hx)
  · intro c d p q hne hc hd x hx
    rcases hof c p hc with ⟨e1, e⟩ | ⟨e1, e⟩
    · rcases hof d q hd with ⟨e2, e'⟩ | ⟨e2, e'⟩
      · exact absurd (e1.trans e2.symm) hne
      · rw [← e, hn.mem_iff] at hx
        rcases List.mem_cons.1 hx with e3 | hx
        · rw [e3]; exact hbo d q e'
        · exact h.sep a d o q (fun e => e2 e.symm) ha e' x hx
    · rcases hof d q hd with ⟨e2, e'⟩ | ⟨e2, e'⟩
      · rw [← e', hn.mem_iff]
        intro hc'
        rcases List.mem_cons.1 hc' with e3 | hx'
        · rw [e3] at hx; exact hbo c p e hx
        · exact h.sep c a p o e1 e ha x hx hx'
      · exact h.sep c d p q hne e e' x hx
  · intro x hx
    rcases List.mem_cons.1 hx with e | hx
    · exact ⟨a, o', put_self .., by rw [e, hn.mem_iff]; exact List.mem_cons_self ..⟩
    · obtain ⟨c, p, hc, hxp⟩ := h.cover x hx
      by_cases e : c = a
      · subst e
        rw [ha] at hc; injection hc with hc; subst hc
        exact ⟨c, o', put_self .., hn.mem_iff.2 (List.mem_cons_of_mem _ hxp)⟩
      · exact ⟨c, p, (put_other w _ e).trans hc, hxp⟩

/-- `get` is defined except on a queue that was detached and has no free buffer. -/
theorem inv_get {size : Nat} {w : World} (h : Inv size w) {t mem a : Nat} {fresh : Option Nat} (ht : (t, a) ∈ w.tracks)
    (hf : ∀ b, fresh = some b → b ∉ w.held) :
    (get w t mem fresh = .ub ∧ ∃ o, w.heap a = some o ∧ o.q.attached = false ∧ o.q.free = []) ∨
    ∃ r w', get w t mem fresh = .ok (r, w') ∧ Inv size w' := by
  obtain ⟨o, ha⟩ := h.live _ ht
  dsimp only at ha
  have ho := h.objs a o ha
  have ht' := (track_mem h.names).2 ht
  have hkeep : ∀ o', ObjInv size w.nextLock (nt w a) (hs w a) o' → o'.refCount = o.refCount → ∀ held',
      AInv { w.put a (some o') with held := held' } → Inv size { w.put a (some o') with held := held' } := by
    intro o' ho' hr held' hal
    exact inv_change h (a := a) (o' := some o') rfl (h.small a o ha) (Nat.le_refl _) (Nat.le_refl _) h.names hal
      (fun _ _ => rfl) (fun _ _ => rfl) (.inl ⟨o', rfl, ho', by rw [hr]; exact h.pos a o ha⟩)
  cases hfr : o.q.free with
  | cons r rest =>
    right
    obtain ⟨q', hg, h1, h2, h3⟩ : ∃ q', BufQueue.get { o.q with memLeft := mem } fresh = .ok (some r, q') ∧
        q'.used = o.q.used ++ [r] ∧ q'.free = rest ∧ q'.allocSize = o.q.allocSize := by
      unfold BufQueue.get
      dsimp only
      rw [hfr]
      exact ⟨_, rfl, rfl, rfl, rfl⟩
    refine ⟨some r, _, by simp only [get, ht', ha, hg]; rfl, ?_⟩
    have e : o.q.free.isEmpty = false := by rw [hfr]; rfl
    rw [e]
    refine hkeep _ (inv_grow ho h1 (h3.trans ho.sz)) rfl _ ?_
    refine alloc_of_heap (alloc_put h.alloc ha (o' := { o with q := q', got := o.got ++ [r] }) ?_) rfl rfl
    show (o.q.used ++ o.q.free).Perm (q'.used ++ q'.free)
    rw [hfr, h1, h2, List.append_assoc]; exact .refl _
  | nil =>
    have hnone : BufQueue.get { o.q with memLeft := mem } fresh = .ok (none, { o.q with memLeft := mem }) →
        ∃ r w', get w t mem fresh = .ok (r, w') ∧ Inv size w' := by
      intro hg
      refine ⟨none, _, by simp only [get, ht', ha, hg]; rfl, ?_⟩
      exact hkeep { o with q := { o.q with memLeft := mem } } (inv_queue ho rfl ho.sz) rfl w.held
        (alloc_put h.alloc ha (o' := { o with q := { o.q with memLeft := mem } }) (.refl _))
    by_cases hat : o.q.attached = false
    · left
      have hg : BufQueue.get { o.q with memLeft := mem } fresh = .ub := by
        unfold BufQueue.get
        dsimp only
        rw [hfr]
        exact if_pos hat
      exact ⟨by simp only [get, ht', ha, hg], o, ha, hat, hfr⟩
    · right
      by_cases hlt : mem < o.q.allocSize
      · refine hnone ?_
        unfold BufQueue.get
        dsimp only
        rw [hfr]
        exact (if_neg hat).trans (if_pos hlt)
      · cases fresh with
        | none =>
          refine hnone ?_
          unfold BufQueue.get
          dsimp only
          rw [hfr]
          exact (if_neg hat).trans (if_neg hlt)
        | some b =>
          obtain ⟨q', hg, h1, h2, h3⟩ : ∃ q', BufQueue.get { o.q with memLeft := mem } (some b) = .ok (some b, q') ∧
              q'.used = o.q.used ++ [b] ∧ q'.free = o.q.free ∧ q'.allocSize = o.q.allocSize := by
            unfold BufQueue.get
            dsimp only
            rw [hfr]
            exact ⟨_, (if_neg hat).trans (if_neg hlt), rfl, rfl, rfl⟩
          refine ⟨some b, _, by simp only [get, ht', ha, hg]; rfl, ?_⟩
          have e : o.q.free.isEmpty = true := by rw [hfr]; rfl
          rw [e]
          refine hkeep _ (inv_grow ho h1 (h3.trans ho.sz)) rfl _ (alloc_new h.alloc ha (hf b rfl) ?_)
          show (q'.used ++ q'.free).Perm (b :: (o.q.used ++ o.q.free))
          rw [h1, h2, List.append_assoc]
          exact List.perm_middle

theorem inv_step {size maxFree : Nat} {w : World} (h : Inv size w) {op : Op} (ha : Allowed size w op) :
    (step size maxFree w op = .err ∧ size ≤ BufQueue.hdr) ∨
    (step size maxFree w op = .ub ∧ ∃ t mem fresh a o, op = .get t mem fresh ∧ (t, a) ∈ w.tracks ∧ w.heap a = some o ∧
      o.q.attached = false ∧ o.q.free = []) ∨
    ∃ w', step size maxFree w op = .ok w' ∧ Inv size w' := by
  cases op with
  | trackInit t =>
    rcases inv_trackInit (maxFree := maxFree) h ha with h1 | h1
    · exact .inl h1
    · exact .inr (.inr h1)
  | trackFree t => exact .inr (.inr (inv_trackFree h t))
  | channelFree a => exact .inr (.inr (inv_channelFree h a))
  | get t mem fresh =>
    obtain ⟨⟨a, ht⟩, hf⟩ := ha
    rcases inv_get (mem := mem) h ht hf with ⟨h1, o, h2⟩ | ⟨r, w', h1, h2⟩
    · exact .inr (.inl ⟨by simp only [step, h1, Res.map_ub], t, mem, fresh, a, o, rfl, ht, h2⟩)
    · exact .inr (.inr ⟨w', by simp only [step, h1, Res.map_ok], h2⟩)
  | lock t seg ptr alloc k =>
    obtain ⟨a, o, ht, ho, hk⟩ := ha
    exact .inr (.inr (inv_lock h ht ho hk))
  | unlock i =>
    right; right
    cases hx : w.holds[i]? with
    | none => exact ⟨w, by simp only [step, hx], h⟩
    | some x =>
      obtain ⟨w1, e, h1⟩ := inv_unlock h hx
      exact ⟨_, by simp only [step, hx, e], h1⟩
  | setMinUsed t seg ptr =>
    obtain ⟨a, o, ht, ho, hm⟩ := ha
    exact .inr (.inr (inv_setMin h ht ho hm))
  | link dst src =>
    obtain ⟨hne, ⟨b, hd⟩, a, hsr⟩ := ha
    exact .inr (.inr (inv_link h hne hd hsr))

theorem inv_empty (size : Nat) : Inv size empty := by
  refine ⟨?_, ?_, ?_, ?_, List.nodup_nil, ?_, ?_, ?_, ?_, ?_⟩
  · intro a o h; exact nomatch h
  · intro a o h; exact nomatch h
  · intro x hx; exact absurd hx List.not_mem_nil
  · intro x hx; exact absurd hx List.not_mem_nil
  · intro a o h; exact nomatch h
  · intro a o h; exact nomatch h
  · intro a o h; exact nomatch h
  · intro a b o p _ h; exact nomatch h
  · intro x hx; exact absurd hx List.not_mem_nil

theorem reach_inv {size maxFree : Nat} {w : World} (h : Reach size maxFree w) : Inv size w := by
  induction h with
  | empty => exact inv_empty size
  | step op _ ha hs ih =>
    rcases inv_step (maxFree := maxFree) ih ha with ⟨e, _⟩ | ⟨e, _⟩ | ⟨w', e, hi⟩
    · rw [hs] at e; exact nomatch e
    · rw [hs] at e; exact nomatch e
    · rw [hs] at e; injection e with e; rw [e]; exact hi

/-! ## C24 -/

/-- C24 (no release): while a reader holds a lock, from the buffer on in which its data starts, all buffers that the track
received into, before or after the lock was taken, are in use: they are not given back to the allocator, and not in the
cache from which they would be handed out again. -/
theorem locked_kept {size maxFree : Nat} {w : World} (h : Reach size maxFree w) {x : Hold} (hx : x ∈ w.holds) :
    ∃ o, w.heap x.obj = some o ∧ ∀ i b, x.k ≤ i → o.got[i]? = some b → b ∈ o.q.used ∧ b ∈ w.held ∧ b ∉ o.q.free := by
  have hi := reach_inv h
  obtain ⟨o, ho⟩ := hi.holds x hx
  refine ⟨o, ho, fun i b hki hb => ?_⟩
  have hoi := hi.objs _ o ho
  have hbase := hoi.hbase x (List.mem_filter.2 ⟨hx, by simp⟩)
  have hu : b ∈ o.q.used := by
    obtain ⟨t, ht⟩ := hoi.suffix
    have hlen : t.length = base o := by
      unfold base; rw [← ht, List.length_append]; omega
    rw [← ht, List.getElem?_append_right (by omega)] at hb
    exact List.mem_of_getElem? hb
  refine ⟨hu, hi.alloc.sub _ o ho b (List.mem_append_left _ hu), fun hf => ?_⟩
  exact (List.nodup_append.1 (hi.alloc.nodup _ o ho)).2.2 b hu b hf rfl

/-- C24 (release): buffers for which there is neither a track nor a reader are gone. -/
theorem unused_gone {size maxFree : Nat} {w : World} (h : Reach size maxFree w) {a : Nat} (ht : ∀ p ∈ w.tracks, p.2 ≠ a)
    (hh : ∀ x ∈ w.holds, x.obj ≠ a) : w.heap a = none := by
  cases e : w.heap a with
  | none => rfl
  | some o =>
    exfalso
    have hi := reach_inv h
    have hoi := hi.objs a o e
    have h0 : nt w a = 0 := List.countP_eq_zero.2 (fun p hp => by simpa using ht p hp)
    have hl : o.locks = [] := by
      cases el : o.locks with
      | nil => rfl
      | cons l ls =>
        have h1 := hoi.lrefs l (by rw [el]; exact List.mem_cons_self ..)
        rw [h1.1, List.countP_pos_iff] at h1
        obtain ⟨x, hx, _⟩ := h1.2
        have := List.mem_filter.1 hx
        exact absurd (by simpa using this.2) (hh x this.1)
    have := hi.pos a o e
    rw [hoi.refs, h0, hl] at this
    exact absurd this (by decide)

/-- C24 (release): without tracks and readers, the allocator has everything back. -/
theorem all_released {size maxFree : Nat} {w : World} (h : Reach size maxFree w) (ht : w.tracks = []) (hh : w.holds = []) :
    w.held = [] := by
  rw [List.eq_nil_iff_forall_not_mem]
  intro x hx
  obtain ⟨a, o, ha, _⟩ := (reach_inv h).alloc.cover x hx
  rw [unused_gone h (a := a) (by rw [ht]; simp) (by rw [hh]; simp)] at ha
  exact nomatch ha

/-- C24: calls do not touch freed objects or locks, and give nothing back twice; the only undefined behaviour is `get` on
buffers that were detached when another track that was linked to them, or the channel, was freed. -/
theorem step_defined {size maxFree : Nat} {w : World} (h : Reach size maxFree w) {op : Op} (ha : Allowed size w op)
    (hz : BufQueue.hdr < size) (hg : ∀ t mem fresh a o, op = .get t mem fresh → (t, a) ∈ w.tracks → w.heap a = some o →
      o.q.attached = true) : ∃ w', step size maxFree w op = .ok w' ∧ Reach size maxFree w' := by
  rcases inv_step (maxFree := maxFree) (reach_inv h) ha with ⟨_, e⟩ | ⟨_, t, mem, fresh, a, o, e1, e2, e3, e4, _⟩ | ⟨w', e, _⟩
  · omega
  · rw [hg t mem fresh a o e1 e2 e3] at e4; exact nomatch e4
  · exact ⟨w', e, .step op h ha e⟩

end Verif.InputBufs
