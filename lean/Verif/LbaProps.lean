import Verif.Lba

/-!
# Properties C06 and C07: the large buffer allocator
-/

namespace Verif.Lba

/-- Reachable worlds of an allocator created for buffers of `userSize` bytes and `binReq` bins. -/
inductive Reach (debug : Bool) (userSize binReq : Nat) : World → Prop where
  | init (l : Lba) (h : create debug userSize binReq = some l) :
      Reach debug userSize binReq { l, live := [], mapped := [] }
  | step {w w' : World} {op : Op} {r : Option Buf} (h : Reach debug userSize binReq w)
      (hok : op.ok w) (hs : step w op = .ok (r, w')) : Reach debug userSize binReq w'

/-! ## Block level invariant (any build) -/

/-- The two worlds differ only in the links of the active queue. -/
structure SameCore (l l' : Lba) : Prop where
  debug     : l'.debug = l.debug
  binCount  : l'.binCount = l.binCount
  blockBufs : l'.blockBufs = l.blockBufs
  bufSize   : l'.bufSize = l.bufSize
  bins      : l'.bins = l.bins
  blk       : l'.blk = l.blk

theorem SameCore.refl (l : Lba) : SameCore l l := ⟨rfl, rfl, rfl, rfl, rfl, rfl⟩

theorem SameCore.trans {a b c : Lba} (h : SameCore a b) (g : SameCore b c) : SameCore a c :=
  ⟨g.1.trans h.1, g.2.trans h.2, g.3.trans h.3, g.4.trans h.4, g.5.trans h.5, g.6.trans h.6⟩

theorem insertAfter_core {l l' : Lba} {h x : Nat} (hs : insertAfter l h x = .ok l') :
    SameCore l l' := by
  unfold insertAfter at hs
  split at hs
  · exact nomatch hs
  · cases hs; exact ⟨rfl, rfl, rfl, rfl, rfl, rfl⟩

theorem insertBefore_core {l l' : Lba} {h x : Nat} (hs : insertBefore l h x = .ok l') :
    SameCore l l' := by
  unfold insertBefore at hs
  split at hs
  · exact nomatch hs
  · cases hs; exact ⟨rfl, rfl, rfl, rfl, rfl, rfl⟩

theorem remove_core {l l' : Lba} {x : Nat} (hs : remove l x = .ok l') :
    SameCore l l' := by
  unfold remove at hs
  split at hs
  · dsimp only at hs
    split at hs <;> (cases hs; exact ⟨rfl, rfl, rfl, rfl, rfl, rfl⟩)
  · exact nomatch hs

/-- What is true of the header of a mapped block. -/
structure BlockOk (l : Lba) (k : Block) : Prop where
  nd    : k.free.Nodup
  lt    : ∀ i ∈ k.free, i < k.inited
  cap   : k.inited ≤ l.blockBufs
  count : k.used + k.free.length = k.inited
  bin   : k.binIndex = k.used * l.binCount / l.blockBufs

/-- Two blocks do not overlap. -/
def BlockDisj (a b : Nat) : Prop := a + blockSize ≤ b ∨ b + blockSize ≤ a

structure Inv1 (debug : Bool) (userSize binReq : Nat) (w : World) : Prop where
  debug : w.l.debug = debug
  size  : w.l.bufSize = userSize + bufHdr
  bufs  : w.l.blockBufs = (blockSize - blockHdr) / (userSize + bufHdr)
  pos   : 0 < w.l.blockBufs
  binc  : w.l.binCount = min binReq w.l.blockBufs
  loc   : ∀ k b, b ∈ w.l.bins k ↔ b ∈ w.mapped ∧ (w.l.blk b).binIndex = k
  nd    : ∀ k, (w.l.bins k).Nodup
  mdisj : w.mapped.Pairwise BlockDisj
  blk   : ∀ b ∈ w.mapped, BlockOk w.l (w.l.blk b)
  lnd   : w.live.Nodup
  live  : ∀ b i, (b, i) ∈ w.live ↔
            b ∈ w.mapped ∧ i < (w.l.blk b).inited ∧ i ∉ (w.l.blk b).free

theorem nodup_lt_length : ∀ (n : Nat) (l : List Nat), l.Nodup → (∀ i ∈ l, i < n) → l.length ≤ n
  | 0, l, _, h => by
    cases l with
    | nil => simp
    | cons a t => exact absurd (h a (by simp)) (by omega)
  | n + 1, l, hn, h => by
    have h1 := nodup_lt_length n (l.erase n) (hn.erase n) (by
      intro i hi
      have := (hn.mem_erase_iff).1 hi
      have := h i this.2
      omega)
    have := List.length_erase (a := n) (l := l)
    split at this <;> omega

theorem upd_same {α} (f : Nat → α) (k : Nat) (v : α) : upd f k v k = v := by simp [upd]
theorem upd_ne {α} (f : Nat → α) {k j : Nat} (v : α) (h : j ≠ k) : upd f k v j = f j := by
  simp [upd, h]

theorem mapped_nodup {m : List Nat} (h : m.Pairwise BlockDisj) : m.Nodup :=
  h.imp (fun {a b} hab => by unfold BlockDisj blockSize at hab; omega)

/-- Location part of the invariant, for an arbitrary set of blocks. -/
def LocOk (bins : Nat → List Nat) (blk : Nat → Block) (mapped : List Nat) : Prop :=
  (∀ k b, b ∈ bins k ↔ b ∈ mapped ∧ (blk b).binIndex = k) ∧ ∀ k, (bins k).Nodup

theorem loc_move {l : Lba} {mapped : List Nat} {b new : Nat} (hb : b ∈ mapped)
    (h : LocOk l.bins l.blk mapped) (hne : new ≠ (l.blk b).binIndex) :
    LocOk (moveBlock l b new).bins (moveBlock l b new).blk mapped := by
  obtain ⟨h1, h2⟩ := h
  constructor
  · intro k c
    simp only [moveBlock]
    by_cases hk : k = new
    · subst hk
      rw [upd_same, upd_ne _ _ hne]
      by_cases hc : c = b
      · subst hc; simp [upd_same, hb]
      · rw [upd_ne _ _ hc, List.mem_append, h1]; simp [hc]
    · rw [upd_ne _ _ hk]
      by_cases ho : k = (l.blk b).binIndex
      · subst ho
        rw [upd_same, (h2 _).mem_erase_iff, h1]
        by_cases hc : c = b
        · subst hc; simp [upd_same, hne]
        · rw [upd_ne _ _ hc]; simp [hc]
      · rw [upd_ne _ _ ho, h1]
        by_cases hc : c = b
        · subst hc; rw [upd_same]; simp [Ne.symm ho, Ne.symm hk]
        · rw [upd_ne _ _ hc]
  · intro k
    simp only [moveBlock]
    by_cases hk : k = new
    · subst hk
      rw [upd_same, upd_ne _ _ hne]
      have hnb : b ∉ l.bins k := by
        rw [h1]; intro h; exact hne h.2.symm
      rw [List.nodup_append]
      refine ⟨h2 k, by simp, ?_⟩
      intro a ha c hc
      simp at hc; subst hc
      intro hac; subst hac; exact hnb ha
    · rw [upd_ne _ _ hk]
      by_cases ho : k = (l.blk b).binIndex
      · subst ho; rw [upd_same]; exact (h2 _).erase _
      · rw [upd_ne _ _ ho]; exact h2 k

/-- Changing the header of a block, except for its bin, does not affect the location part. -/
theorem loc_blk {bins : Nat → List Nat} {blk : Nat → Block} {mapped : List Nat} {b : Nat}
    {k1 : Block} (h : LocOk bins blk mapped) (hk : k1.binIndex = (blk b).binIndex) :
    LocOk bins (upd blk b k1) mapped := by
  refine ⟨?_, h.2⟩
  intro k c
  rw [h.1]
  by_cases hc : c = b
  · subst hc; rw [upd_same, hk]
  · rw [upd_ne _ _ hc]

/-- The result of `allocBuf` on the block level. -/
theorem allocBuf_core {l l' : Lba} {b : Nat} {r : Option Buf} {mapped : List Nat}
    (hb : b ∈ mapped) (hloc : LocOk l.bins l.blk mapped) (hok : BlockOk l (l.blk b))
    (hs : allocBuf l b = .ok (r, l')) :
    (r = none ∧ l' = l ∧ (l.blk b).used = l.blockBufs) ∨
    ∃ i k', r = some (b, i) ∧ l'.debug = l.debug ∧ l'.binCount = l.binCount ∧
      l'.blockBufs = l.blockBufs ∧ l'.bufSize = l.bufSize ∧
      LocOk l'.bins l'.blk mapped ∧ l'.blk = upd l.blk b k' ∧ BlockOk l k' ∧
      (i ∈ (l.blk b).free ∨ i = (l.blk b).inited) ∧
      (∀ j, (j < k'.inited ∧ j ∉ k'.free) ↔
            j = i ∨ (j < (l.blk b).inited ∧ j ∉ (l.blk b).free)) := by
  obtain ⟨hnd, hlt, hcap, hcount, hbin⟩ := hok
  unfold allocBuf at hs
  dsimp only at hs
  split at hs
  · rename_i hp
    cases hs
    left
    refine ⟨rfl, rfl, ?_⟩
    unfold pickBuf at hp
    split at hp
    · exact nomatch hp
    · rename_i hf
      split at hp
      · exact nomatch hp
      · rw [hf] at hcount; simp at hcount; omega
  · rename_i i k1 hp
    right
    -- facts on the picked buffer
    have hk1 : k1.binIndex = (l.blk b).binIndex ∧ k1.used = (l.blk b).used ∧ k1.free.Nodup ∧
        (∀ i ∈ k1.free, i < k1.inited) ∧ k1.inited ≤ l.blockBufs ∧
        k1.used + 1 + k1.free.length = k1.inited ∧
        (i ∈ (l.blk b).free ∨ i = (l.blk b).inited) ∧
        (∀ j, (j < k1.inited ∧ j ∉ k1.free) ↔
            j = i ∨ (j < (l.blk b).inited ∧ j ∉ (l.blk b).free)) := by
      unfold pickBuf at hp
      split at hp
      · rename_i i' rest hf
        cases hp
        rw [hf] at hnd hlt hcount
        simp only [List.nodup_cons] at hnd
        simp only [List.length_cons] at hcount
        refine ⟨rfl, rfl, hnd.2, fun j hj => hlt j (by simp [hj]), hcap, by dsimp only; omega,
          by simp [hf], ?_⟩
        intro j
        rw [hf]
        simp only [List.mem_cons, not_or]
        constructor
        · intro ⟨ha, hb⟩
          by_cases hji : j = i
          · exact Or.inl hji
          · exact Or.inr ⟨ha, hji, hb⟩
        · rintro (h | ⟨ha, hb, hc⟩)
          · subst h; exact ⟨hlt j (by simp), hnd.1⟩
          · exact ⟨ha, hc⟩
      · rename_i hf
        split at hp
        · rename_i hl
          cases hp
          rw [hf] at hcount
          simp only [List.length_nil] at hcount
          refine ⟨rfl, rfl, by simp [hf], by simp [hf], by dsimp only; omega,
            by simp [hf]; omega, Or.inr rfl, ?_⟩
          intro j
          rw [hf]
          simp only [List.not_mem_nil, not_false_eq_true, and_true]
          omega
        · exact nomatch hp
    obtain ⟨e1, e2, e3, e4, e5, e6, e7, e8⟩ := hk1
    have hloc1 : LocOk l.bins (upd l.blk b { k1 with used := k1.used + 1 }) mapped :=
      loc_blk hloc e1
    split at hs
    · rename_i hne
      cases hs
      refine ⟨i, { k1 with used := k1.used + 1 }, rfl, rfl, rfl, rfl, rfl, hloc1, rfl,
        ⟨e3, e4, e5, e6, ?_⟩, e7, e8⟩
      dsimp only; rw [e1, e2]; exact hne.symm
    · rename_i hne
      have hloc2 := loc_move (l := { l with blk := upd l.blk b { k1 with used := k1.used + 1 } })
        (new := ((l.blk b).used + 1) * l.binCount / l.blockBufs) hb hloc1
        (by dsimp only; rw [upd_same]; dsimp only; rw [e1]; exact hne)
      split at hs
      · rename_i l3 h3
        have c3 : SameCore (moveBlock { l with blk := upd l.blk b { k1 with used := k1.used + 1 } }
            b (((l.blk b).used + 1) * l.binCount / l.blockBufs)) l3 := by
          split at h3
          · exact insertAfter_core h3
          · cases h3; exact SameCore.refl _
        have c4 : SameCore l3 l' ∧ r = some (b, i) := by
          split at hs
          · cases h5 : remove l3 (l.blk b).binIndex with
            | ok l4 =>
              rw [h5] at hs
              simp only [Res.map_ok, Res.ok.injEq, Prod.mk.injEq] at hs
              rw [← hs.2, ← hs.1]
              exact ⟨remove_core h5, rfl⟩
            | err => rw [h5] at hs; exact nomatch hs
            | ub => rw [h5] at hs; exact nomatch hs
          · cases hs; exact ⟨SameCore.refl _, rfl⟩
        obtain ⟨c4, hr⟩ := c4
        have c := c3.trans c4
        refine ⟨i, { k1 with used := k1.used + 1,
                             binIndex := ((l.blk b).used + 1) * l.binCount / l.blockBufs },
          hr, c.debug, c.binCount, c.blockBufs, c.bufSize, ?_, ?_, ⟨e3, e4, e5, e6, ?_⟩, e7, e8⟩
        · rw [c.bins, c.blk]; exact hloc2
        · rw [c.blk]
          funext j
          simp only [moveBlock]
          by_cases hj : j = b
          · subst hj; simp only [upd_same]
          · simp only [upd_ne _ _ hj]
        · dsimp only; rw [e2]
      · exact nomatch hs
      · exact nomatch hs

theorem blockFree_core {l l' : Lba} {b : Nat} (hs : blockFree l b = .ok l') :
    SameCore { l with bins := upd l.bins (l.blk b).binIndex
                        ((l.bins (l.blk b).binIndex).erase b) } l' := by
  unfold blockFree at hs
  dsimp only at hs
  split at hs
  · exact remove_core hs
  · cases hs; exact SameCore.refl _

/-- The result of `freeBuf` on the block level. -/
theorem freeBuf_core {l l' : Lba} {b i : Nat} {un : Bool} {mapped : List Nat}
    (hb : b ∈ mapped) (hm : mapped.Nodup)
    (hloc : LocOk l.bins l.blk mapped) (hok : BlockOk l (l.blk b))
    (hi : i < (l.blk b).inited) (hif : i ∉ (l.blk b).free)
    (hs : freeBuf l b i = .ok (un, l')) :
    l'.debug = l.debug ∧ l'.binCount = l.binCount ∧
      l'.blockBufs = l.blockBufs ∧ l'.bufSize = l.bufSize ∧
    ((un = true ∧ (l.blk b).used = 1 ∧ LocOk l'.bins l'.blk (mapped.erase b) ∧
      ∀ c, c ≠ b → l'.blk c = l.blk c) ∨
     (∃ k', un = false ∧ LocOk l'.bins l'.blk mapped ∧ l'.blk = upd l.blk b k' ∧ BlockOk l k' ∧
      k'.inited = (l.blk b).inited ∧ k'.free = i :: (l.blk b).free)) := by
  obtain ⟨hnd, hlt, hcap, hcount, hbin⟩ := hok
  have hused : (l.blk b).used ≠ 0 := by
    have := nodup_lt_length (l.blk b).inited (i :: (l.blk b).free) (List.nodup_cons.2 ⟨hif, hnd⟩)
      (by intro j hj; rcases List.mem_cons.1 hj with h | h
          · subst h; exact hi
          · exact hlt j h)
    simp only [List.length_cons] at this
    omega
  unfold freeBuf at hs
  dsimp only at hs
  split at hs
  · rename_i hc
    generalize hr : blockFree _ _ = res at hs
    have hun : un = true ∧ res = .ok l' := by
      cases res with
      | ok l4 =>
        simp only [Res.map_ok, Res.ok.injEq, Prod.mk.injEq] at hs
        rw [← hs.2, ← hs.1]; exact ⟨rfl, rfl⟩
      | err => exact nomatch hs
      | ub => exact nomatch hs
    obtain ⟨hun, hres⟩ := hun
    have c := blockFree_core (hr.trans hres)
    dsimp only at c
    simp only [upd_same] at c
    refine ⟨c.debug, c.binCount, c.blockBufs, c.bufSize, Or.inl ⟨hun, by omega, ?_, ?_⟩⟩
    · rw [c.bins, c.blk]
      dsimp only
      obtain ⟨h1, h2⟩ := hloc
      constructor
      · intro k d
        rw [hm.mem_erase_iff]
        by_cases hk : k = (l.blk b).binIndex
        · subst hk
          rw [upd_same, (h2 _).mem_erase_iff, h1]
          by_cases hd : d = b
          · simp [hd]
          · rw [upd_ne _ _ hd]; simp [hd]
        · rw [upd_ne _ _ hk, h1]
          by_cases hd : d = b
          · subst hd; simp [Ne.symm hk]
          · rw [upd_ne _ _ hd]; simp [hd]
      · intro k
        by_cases hk : k = (l.blk b).binIndex
        · subst hk; rw [upd_same]; exact (h2 _).erase _
        · rw [upd_ne _ _ hk]; exact h2 k
    · intro d hd
      rw [c.blk]; exact upd_ne _ _ hd
  · have hloc1 : LocOk l.bins (upd l.blk b { l.blk b with
        used := (l.blk b).used - 1, free := i :: (l.blk b).free }) mapped := loc_blk hloc rfl
    split at hs
    · rename_i hne
      cases hs
      refine ⟨rfl, rfl, rfl, rfl, Or.inr ⟨{ l.blk b with
        used := (l.blk b).used - 1, free := i :: (l.blk b).free }, rfl, hloc1, rfl,
        ⟨List.nodup_cons.2 ⟨hif, hnd⟩, ?_, hcap, ?_, hne.symm⟩, rfl, rfl⟩⟩
      · intro j hj; rcases List.mem_cons.1 hj with h | h
        · subst h; exact hi
        · exact hlt j h
      · simp only [List.length_cons]; omega
    · rename_i hne
      have hloc2 := loc_move (l := { l with blk := upd l.blk b { l.blk b with
          used := (l.blk b).used - 1, free := i :: (l.blk b).free } })
        (new := ((l.blk b).used - 1) * l.binCount / l.blockBufs) hb hloc1
        (by dsimp only; rw [upd_same]; exact hne)
      split at hs
      · rename_i l3 h3
        have c3 : SameCore (moveBlock { l with blk := upd l.blk b { l.blk b with
            used := (l.blk b).used - 1, free := i :: (l.blk b).free } }
            b (((l.blk b).used - 1) * l.binCount / l.blockBufs)) l3 := by
          split at h3
          · exact insertBefore_core h3
          · cases h3; exact SameCore.refl _
        have c4 : SameCore l3 l' ∧ un = false := by
          split at hs
          · cases h5 : remove l3 (l.blk b).binIndex with
            | ok l4 =>
              rw [h5] at hs
              simp only [Res.map_ok, Res.ok.injEq, Prod.mk.injEq] at hs
              rw [← hs.2, ← hs.1]
              exact ⟨remove_core h5, rfl⟩
            | err => rw [h5] at hs; exact nomatch hs
            | ub => rw [h5] at hs; exact nomatch hs
          · cases hs; exact ⟨SameCore.refl _, rfl⟩
        obtain ⟨c4, hr⟩ := c4
        have c := c3.trans c4
        refine ⟨c.debug, c.binCount, c.blockBufs, c.bufSize, Or.inr ⟨{ l.blk b with
          used := (l.blk b).used - 1, free := i :: (l.blk b).free,
          binIndex := ((l.blk b).used - 1) * l.binCount / l.blockBufs }, hr, ?_, ?_,
          ⟨List.nodup_cons.2 ⟨hif, hnd⟩, ?_, hcap, ?_, rfl⟩, rfl, rfl⟩⟩
        · rw [c.bins, c.blk]; exact hloc2
        · rw [c.blk]
          funext j
          simp only [moveBlock]
          by_cases hj : j = b
          · subst hj; simp only [upd_same]
          · simp only [upd_ne _ _ hj]
        · intro j hj; rcases List.mem_cons.1 hj with h | h
          · subst h; exact hi
          · exact hlt j h
        · simp only [List.length_cons]; omega
      · exact nomatch hs
      · exact nomatch hs

theorem inv1_step {debug : Bool} {us br : Nat} {w w' : World} {op : Op} {r : Option Buf}
    (h : Inv1 debug us br w) (hok : op.ok w) (hs : step w op = .ok (r, w')) :
    Inv1 debug us br w' ∧
      match op with
      | .alloc _ => ∀ x, r = some x → x ∉ w.live ∧ w'.live = x :: w.live
      | .free x => w'.live = w.live.erase x := by
  obtain ⟨i1, i2, i3, i4, i5, iloc, ind, im, ib, iln, il⟩ := h
  have hmnd := mapped_nodup im
  cases op with
  | alloc fresh =>
    simp only [step] at hs
    split at hs
    case h_2 => exact nomatch hs
    case h_3 => exact nomatch hs
    rename_i isNew r' l' ha
    simp only [Res.ok.injEq, Prod.mk.injEq] at hs
    obtain ⟨hr, hw⟩ := hs
    subst hr
    unfold alloc at ha
    split at ha
    · exact nomatch ha
    rename_i q hq
    split at ha
    · -- new block
      generalize hba : blockAlloc _ _ = res at ha
      cases res with
      | err => exact nomatch ha
      | ub => exact nomatch ha
      | ok p =>
        simp only [Res.map_ok, Res.ok.injEq, Prod.mk.injEq] at ha
        obtain ⟨hn, hp⟩ := ha
        subst hp
        unfold blockAlloc at hba
        split at hba
        · -- mmap failed
          simp only [Res.ok.injEq, Prod.mk.injEq] at hba
          obtain ⟨h1, h2⟩ := hba
          subst h1 h2
          simp only [Option.isSome_none] at hn
          subst hn
          subst hw
          exact ⟨⟨i1, i2, i3, i4, i5, iloc, ind, im, ib, iln, il⟩, by intro x hx; exact nomatch hx⟩
        · rename_i b
          simp only [Option.isSome_some] at hn
          subst hn
          have hfresh : ∀ b' ∈ w.mapped, b + blockSize ≤ b' ∨ b' + blockSize ≤ b := hok
          have hnm : b ∉ w.mapped := by
            intro hb; have := hfresh b hb; unfold blockSize at this; omega
          have hc : r' = some (b, 0) ∧ SameCore
              { w.l with blk := upd w.l.blk b { binIndex := initialBin w.l, free := [], inited := 1, used := 1 }
                         bins := upd w.l.bins (initialBin w.l) (w.l.bins (initialBin w.l) ++ [b]) } l' := by
            dsimp only at hba
            split at hba
            · generalize hia : insertAfter _ _ _ = res at hba
              cases res with
              | err => exact nomatch hba
              | ub => exact nomatch hba
              | ok l2 =>
                simp only [Res.map_ok, Res.ok.injEq, Prod.mk.injEq] at hba
                rw [← hba.1, ← hba.2]
                exact ⟨rfl, insertAfter_core hia⟩
            · simp only [Res.ok.injEq, Prod.mk.injEq] at hba
              rw [← hba.1, ← hba.2]
              exact ⟨rfl, SameCore.refl _⟩
          obtain ⟨hr, c⟩ := hc
          subst hr
          dsimp only at hw
          subst hw
          have hnl : (b, 0) ∉ w.live := by
            intro hx; exact hnm ((il b 0).1 hx).1
          refine ⟨⟨c.debug.trans i1, c.bufSize.trans i2, c.blockBufs.trans i3, ?_, ?_, ?_, ?_, ?_, ?_,
            ?_, ?_⟩, ?_⟩
          · show 0 < l'.blockBufs
            rw [c.blockBufs]; exact i4
          · show l'.binCount = _
            rw [c.binCount, c.blockBufs]; exact i5
          · intro k d
            show d ∈ l'.bins k ↔ d ∈ b :: w.mapped ∧ (l'.blk d).binIndex = k
            rw [c.bins, c.blk]
            dsimp only
            by_cases hk : k = initialBin w.l
            · subst hk
              rw [upd_same, List.mem_append, List.mem_cons, iloc]
              by_cases hd : d = b
              · subst hd; simp [upd_same]
              · rw [upd_ne _ _ hd]; simp [hd]
            · rw [upd_ne _ _ hk, iloc, List.mem_cons]
              by_cases hd : d = b
              · subst hd; rw [upd_same]; simp [hnm, Ne.symm hk]
              · rw [upd_ne _ _ hd]; simp [hd]
          · intro k
            show (l'.bins k).Nodup
            rw [c.bins]
            dsimp only
            by_cases hk : k = initialBin w.l
            · subst hk
              rw [upd_same, List.nodup_append]
              refine ⟨ind _, by simp, ?_⟩
              intro a ha d hd
              simp at hd; subst hd
              intro had; subst had
              exact hnm ((iloc _ _).1 ha).1
            · rw [upd_ne _ _ hk]; exact ind k
          · show (b :: w.mapped).Pairwise BlockDisj
            exact List.pairwise_cons.2 ⟨hfresh, im⟩
          · intro d hd
            show BlockOk l' (l'.blk d)
            rw [c.blk]
            dsimp only
            by_cases hdb : d = b
            · subst hdb
              rw [upd_same]
              refine ⟨by simp, by simp, ?_, by simp, ?_⟩
              · rw [c.blockBufs]; exact i4
              · rw [c.blockBufs, c.binCount]; simp [initialBin]
            · rw [upd_ne _ _ hdb]
              have hd' : d ∈ w.mapped := by
                rcases List.mem_cons.1 hd with h | h
                · exact absurd h hdb
                · exact h
              obtain ⟨p1, p2, p3, p4, p5⟩ := ib d hd'
              exact ⟨p1, p2, by rw [c.blockBufs]; exact p3, p4,
                by rw [c.blockBufs, c.binCount]; exact p5⟩
          · exact List.nodup_cons.2 ⟨hnl, iln⟩
          · intro d j
            show (d, j) ∈ (b, 0) :: w.live ↔ d ∈ b :: w.mapped ∧ j < (l'.blk d).inited ∧
              j ∉ (l'.blk d).free
            rw [c.blk, List.mem_cons, List.mem_cons, il]
            dsimp only
            by_cases hd : d = b
            · subst hd; rw [upd_same]; simp [hnm]
            · rw [upd_ne _ _ hd]; simp [hd]
          · intro x hx
            cases hx
            exact ⟨hnl, rfl⟩
    · split at ha
      · -- empty bin
        simp only [Res.ok.injEq, Prod.mk.injEq] at ha
        obtain ⟨h1, h2, h3⟩ := ha
        subst h1 h2 h3
        dsimp only at hw
        subst hw
        exact ⟨⟨i1, i2, i3, i4, i5, iloc, ind, im, ib, iln, il⟩, by intro x hx; exact nomatch hx⟩
      · rename_i b hlast
        have hbq : b ∈ w.l.bins q := List.mem_of_getLast? hlast
        have hbm := ((iloc q b).1 hbq).1
        generalize hab : allocBuf _ _ = res at ha
        cases res with
        | err => exact nomatch ha
        | ub => exact nomatch ha
        | ok p =>
          simp only [Res.map_ok, Res.ok.injEq, Prod.mk.injEq] at ha
          obtain ⟨hn, hp⟩ := ha
          subst hp
          subst hn
          rcases allocBuf_core hbm ⟨iloc, ind⟩ (ib b hbm) hab with ⟨e1, e2, _⟩ | he
          · subst e1 e2
            dsimp only at hw
            subst hw
            exact ⟨⟨i1, i2, i3, i4, i5, iloc, ind, im, ib, iln, il⟩,
              by intro x hx; exact nomatch hx⟩
          · obtain ⟨i, k', hr, c1, c2, c3, c4, cl, cb, cok, cpick, clive⟩ := he
            subst hr
            dsimp only at hw
            subst hw
            have hnl : (b, i) ∉ w.live := by
              intro hx
              obtain ⟨_, x2, x3⟩ := (il b i).1 hx
              rcases cpick with h | h
              · exact x3 h
              · omega
            refine ⟨⟨c1.trans i1, c4.trans i2, c3.trans i3, ?_, ?_, cl.1, cl.2, im, ?_, ?_, ?_⟩, ?_⟩
            · show 0 < l'.blockBufs
              rw [c3]; exact i4
            · show l'.binCount = _
              rw [c2, c3]; exact i5
            · intro d hd
              show BlockOk l' (l'.blk d)
              rw [cb]
              by_cases hdb : d = b
              · subst hdb
                rw [upd_same]
                obtain ⟨p1, p2, p3, p4, p5⟩ := cok
                exact ⟨p1, p2, by rw [c3]; exact p3, p4, by rw [c2, c3]; exact p5⟩
              · rw [upd_ne _ _ hdb]
                obtain ⟨p1, p2, p3, p4, p5⟩ := ib d hd
                exact ⟨p1, p2, by rw [c3]; exact p3, p4, by rw [c2, c3]; exact p5⟩
            · exact List.nodup_cons.2 ⟨hnl, iln⟩
            · intro d j
              show (d, j) ∈ (b, i) :: w.live ↔ d ∈ w.mapped ∧ j < (l'.blk d).inited ∧
                j ∉ (l'.blk d).free
              rw [cb, List.mem_cons, il]
              by_cases hd : d = b
              · subst hd
                rw [upd_same, clive]
                simp only [Prod.mk.injEq, true_and, hbm]
              · rw [upd_ne _ _ hd]; simp [hd]
            · intro x hx
              cases hx
              exact ⟨hnl, rfl⟩
  | free x =>
    obtain ⟨b, i⟩ := x
    simp only [step] at hs
    split at hs
    case h_2 => exact nomatch hs
    case h_3 => exact nomatch hs
    rename_i un l' hf
    simp only [Res.ok.injEq, Prod.mk.injEq] at hs
    obtain ⟨hr, hw⟩ := hs
    have hlive : (b, i) ∈ w.live := hok
    obtain ⟨hbm, hi, hif⟩ := (il b i).1 hlive
    obtain ⟨c1, c2, c3, c4, hcase⟩ := freeBuf_core hbm hmnd ⟨iloc, ind⟩ (ib b hbm) hi hif hf
    subst hw
    refine ⟨?_, rfl⟩
    rcases hcase with ⟨hun, hu1, cl, cb⟩ | ⟨k', hun, cl, cb, cok, cin, cfr⟩
    · subst hun
      simp only [if_true]
      refine ⟨c1.trans i1, c4.trans i2, c3.trans i3, ?_, ?_, cl.1, cl.2, im.sublist
        (List.erase_sublist), ?_, iln.erase _, ?_⟩
      · show 0 < l'.blockBufs
        rw [c3]; exact i4
      · show l'.binCount = _
        rw [c2, c3]; exact i5
      · intro d hd
        rw [hmnd.mem_erase_iff] at hd
        show BlockOk l' (l'.blk d)
        rw [cb d hd.1]
        obtain ⟨p1, p2, p3, p4, p5⟩ := ib d hd.2
        exact ⟨p1, p2, by rw [c3]; exact p3, p4, by rw [c2, c3]; exact p5⟩
      · intro d j
        show (d, j) ∈ w.live.erase (b, i) ↔ d ∈ w.mapped.erase b ∧ j < (l'.blk d).inited ∧
          j ∉ (l'.blk d).free
        rw [iln.mem_erase_iff, hmnd.mem_erase_iff, il]
        by_cases hd : d = b
        · subst hd
          simp only [ne_eq, not_true_eq_false, false_and, iff_false]
          -- the last live buffer of the block is the one freed
          rintro ⟨hne, _, hj, hjf⟩
          obtain ⟨p1, p2, p3, p4, p5⟩ := ib d hbm
          have hji : j ≠ i := fun h => hne (by rw [h])
          have := nodup_lt_length (w.l.blk d).inited (j :: i :: (w.l.blk d).free)
            (List.nodup_cons.2 ⟨by simp [hji, hjf], List.nodup_cons.2 ⟨hif, p1⟩⟩)
            (by intro m hm
                simp only [List.mem_cons] at hm
                rcases hm with h | h | h
                · subst h; exact hj
                · subst h; exact hi
                · exact p2 m h)
          simp only [List.length_cons] at this
          omega
        · rw [cb d hd]; simp [hd]
    · subst hun
      simp only [Bool.false_eq_true, if_false]
      refine ⟨c1.trans i1, c4.trans i2, c3.trans i3, ?_, ?_, cl.1, cl.2, im, ?_, iln.erase _, ?_⟩
      · show 0 < l'.blockBufs
        rw [c3]; exact i4
      · show l'.binCount = _
        rw [c2, c3]; exact i5
      · intro d hd
        show BlockOk l' (l'.blk d)
        rw [cb]
        by_cases hdb : d = b
        · subst hdb
          rw [upd_same]
          obtain ⟨p1, p2, p3, p4, p5⟩ := cok
          exact ⟨p1, p2, by rw [c3]; exact p3, p4, by rw [c2, c3]; exact p5⟩
        · rw [upd_ne _ _ hdb]
          obtain ⟨p1, p2, p3, p4, p5⟩ := ib d hd
          exact ⟨p1, p2, by rw [c3]; exact p3, p4, by rw [c2, c3]; exact p5⟩
      · intro d j
        show (d, j) ∈ w.live.erase (b, i) ↔ d ∈ w.mapped ∧ j < (l'.blk d).inited ∧
          j ∉ (l'.blk d).free
        rw [iln.mem_erase_iff, cb, il]
        by_cases hd : d = b
        · subst hd
          rw [upd_same, cin, cfr]
          simp only [ne_eq, Prod.mk.injEq, true_and, List.mem_cons, not_or]
          constructor
          · rintro ⟨h1, h2, h3, h4⟩; exact ⟨h2, h3, h1, h4⟩
          · rintro ⟨h2, h3, h1, h4⟩; exact ⟨h1, h2, h3, h4⟩
        · rw [upd_ne _ _ hd]; simp [hd]

theorem inv1_init {debug : Bool} {us br : Nat} {l : Lba} (h : create debug us br = some l) :
    Inv1 debug us br { l, live := [], mapped := [] } := by
  unfold create at h
  split at h
  · exact nomatch h
  · dsimp only at h
    split at h
    · exact nomatch h
    · rename_i hp
      simp only [Option.some.injEq] at h
      subst h
      refine ⟨rfl, rfl, rfl, by dsimp only; omega, ?_, by simp, by simp, by simp, by simp, by simp,
        by simp⟩
      dsimp only
      split <;> omega

theorem inv1_reach {debug : Bool} {us br : Nat} {w : World} (h : Reach debug us br w) :
    Inv1 debug us br w := by
  induction h with
  | init l hl => exact inv1_init hl
  | step _ hok hs ih => exact (inv1_step ih hok hs).1

/-! ## C06 -/

/-- The memory of a buffer handed out. -/
def memOf (userSize : Nat) (x : Buf) : Nat × Nat :=
  (bufAddr (userSize + bufHdr) x, bufAddr (userSize + bufHdr) x + userSize)

/-- C06, in every build and for every parameters: at every reachable state the live buffers lie in
mapped blocks (after the block header) and no two of them overlap. -/
theorem live_disjoint {debug : Bool} {us br : Nat} {w : World} (h : Reach debug us br w) :
    (∀ x ∈ w.live, x.1 ∈ w.mapped ∧ x.1 + blockHdr ≤ (memOf us x).1 ∧
      (memOf us x).2 ≤ x.1 + blockSize) ∧
    w.live.Pairwise (fun x y => (memOf us x).2 ≤ (memOf us y).1 ∨ (memOf us y).2 ≤ (memOf us x).1) ∧
    w.mapped.Pairwise BlockDisj := by
  have hi := inv1_reach h
  have hin : ∀ x ∈ w.live, x.1 ∈ w.mapped ∧ x.2 < w.l.blockBufs := by
    rintro ⟨b, i⟩ hx
    obtain ⟨h1, h2, _⟩ := (hi.live b i).1 hx
    exact ⟨h1, Nat.lt_of_lt_of_le h2 (hi.blk b h1).cap⟩
  have hgeo : ∀ i, i < w.l.blockBufs → (us + bufHdr) * i + (us + bufHdr) ≤ blockSize - blockHdr := by
    intro i hlt
    have h1 : (us + bufHdr) * (i + 1) ≤ (us + bufHdr) * w.l.blockBufs := Nat.mul_le_mul_left _ hlt
    have h2 : (us + bufHdr) * w.l.blockBufs ≤ blockSize - blockHdr := by
      rw [hi.bufs]; exact Nat.mul_div_le _ _
    rw [Nat.mul_succ] at h1
    omega
  have hbounds : ∀ x ∈ w.live, x.1 + blockHdr ≤ (memOf us x).1 ∧
      (memOf us x).2 ≤ x.1 + blockSize := by
    intro x hx
    have := hgeo x.2 (hin x hx).2
    simp only [memOf, bufAddr, blockHdr, blockSize, bufHdr] at *
    omega
  refine ⟨fun x hx => ⟨(hin x hx).1, hbounds x hx⟩, ?_, hi.mdisj⟩
  have hms : ∀ a ∈ w.mapped, ∀ b ∈ w.mapped, a ≠ b → BlockDisj a b := by
    have hp := hi.mdisj
    clear hgeo hbounds hin
    generalize w.mapped = m at hp
    induction hp with
    | nil => intro a ha; exact nomatch ha
    | cons hx _ ih =>
      intro a ha b hb hne
      rcases List.mem_cons.1 ha with h1 | h1 <;> rcases List.mem_cons.1 hb with h2 | h2
      · exact absurd (h1.trans h2.symm) hne
      · subst h1; exact hx b h2
      · subst h2; have := hx a h1; unfold BlockDisj at *; omega
      · exact ih a h1 b h2 hne
  have hne : w.live.Pairwise (fun x y => x ∈ w.live ∧ y ∈ w.live ∧ x ≠ y) := by
    have := hi.lnd
    rw [List.Nodup, List.pairwise_iff_forall_sublist] at this
    rw [List.pairwise_iff_forall_sublist]
    intro a b hab
    exact ⟨hab.subset (by simp), hab.subset (by simp), this hab⟩
  refine hne.imp ?_
  rintro ⟨b, i⟩ ⟨c, j⟩ ⟨hx, hy, hxy⟩
  by_cases hbc : b = c
  · subst hbc
    have hij : i ≠ j := fun h => hxy (by rw [h])
    simp only [memOf, bufAddr]
    rcases Nat.lt_or_gt_of_ne hij with h | h
    · left
      have : (us + bufHdr) * (i + 1) ≤ (us + bufHdr) * j := Nat.mul_le_mul_left _ h
      rw [Nat.mul_succ] at this; omega
    · right
      have : (us + bufHdr) * (j + 1) ≤ (us + bufHdr) * i := Nat.mul_le_mul_left _ h
      rw [Nat.mul_succ] at this; omega
  · have h1 := hms b (hin _ hx).1 c (hin _ hy).1 hbc
    have h2 := hbounds _ hx
    have h3 := hbounds _ hy
    dsimp only at h2 h3
    unfold BlockDisj at h1
    omega

/-- C06: what one call does to the set of live buffers. An allocation adds exactly the buffer it
returns, which was not live; freeing a live buffer removes exactly that buffer. -/
theorem step_live {debug : Bool} {us br : Nat} {w w' : World} {op : Op} {r : Option Buf}
    (h : Reach debug us br w) (hok : op.ok w) (hs : step w op = .ok (r, w')) :
    match op, r with
    | .alloc _, some x => x ∉ w.live ∧ w'.live = x :: w.live
    | .alloc _, none => w'.live = w.live
    | .free x, _ => w'.live = w.live.erase x := by
  have hst := (inv1_step (inv1_reach h) hok hs).2
  cases op with
  | free x => exact hst
  | alloc fresh =>
    cases r with
    | some x => exact hst x rfl
    | none =>
      dsimp only
      simp only [step] at hs
      split at hs
      · simp only [Res.ok.injEq, Prod.mk.injEq] at hs
        obtain ⟨h1, h2⟩ := hs
        subst h1 h2
        rfl
      · exact nomatch hs
      · exact nomatch hs

/-- A reachable state with two blocks, one of them partly free. -/
example : ∃ w, Reach true 200000 8 w ∧ w.mapped = [524288, 0] ∧
    w.live = [(524288, 0), (0, 1), (0, 0)] ∧
    2 ≤ (blockSize - blockHdr) / (200000 + bufHdr) := by
  have h0 := Reach.init (debug := true) (userSize := 200000) (binReq := 8) _ rfl
  have h1 := Reach.step (op := .alloc (some 0)) h0 (by intro b hb; exact nomatch hb) rfl
  have h2 := Reach.step (op := .alloc none) h1 trivial rfl
  have h3 := Reach.step (op := .alloc (some 524288)) h2 (by
    intro b hb
    have : b = 0 := by simpa [step] using hb
    subst this; right; decide) rfl
  exact ⟨_, h3, rfl, rfl, by decide⟩

end Verif.Lba
