import Verif.SegmentListSave

/-!
# Segment list: restoring what was saved
-/

namespace Verif.SegmentList

theorem le_last {mono : Bool} {s : SL} (h : Inv mono s) {n : Node} (hn : s.nodes.getLast? = some n) : ∀ g ∈ segs s, g.idx ≤ n.last := by
  intro g hg
  obtain ⟨l, el⟩ := getLast_concat hn
  obtain ⟨m, hm, hgm⟩ := List.mem_flatMap.1 hg
  have hmo := h.ok m hm
  have h1 := seq_mem _ _ _ g hgm
  have h2 := hmo.last
  rw [el] at hm
  rcases List.mem_append.1 hm with hm | hm
  · have hp := Link.trans_idx h.ok h.link
    rw [el] at hp
    have := (List.pairwise_append.1 hp).2.2 m hm n (by simp)
    have := (h.ok n (by rw [el]; simp)).key_le
    omega
  · rw [List.mem_singleton.1 hm] at h1 h2; omega

theorem last_lt {mono : Bool} {s : SL} (h : Inv mono s) {n : Node} (hn : s.nodes.getLast? = some n) {x : Nat} (hx : ∀ g ∈ segs s, g.idx < x) :
    n.last < x := by
  obtain ⟨l, el⟩ := getLast_concat hn
  have hm : n ∈ s.nodes := by rw [el]; simp
  obtain ⟨g, h1, h2, _⟩ := node_last (h.ok n hm)
  have := hx g (List.mem_flatMap.2 ⟨n, hm, List.mem_of_getLast? h1⟩)
  omega

theorem Small.of {time : Int} {es : List Elt} (h1 : -B ≤ time) (h2 : time + ((durs es).sum : Nat) ≤ B) : Small time es := by
  unfold Small B at *; omega

/-- One block. -/
theorem block_ok {r r' : SL} {sc : Scope} {alloc : Nat} {b : Block} (hb : BlockOk sc b) (hM : sc.max + 1 < 2 ^ 32) (h : Inv true r)
    (hr : ∀ g ∈ segs r, g.idx + 1 < 2 ^ 32) (hlow : r.isFirst = false → ∀ g ∈ segs r, g.idx < b.idx)
    (he : readPeriod r sc alloc b.bytes (some 0) = .ok r') :
    Inv true r' ∧ segs r' = segs r ++ b.segs ∧ r'.isFirst = false ∧ r'.lastTime = b.time + ((durs b.elts).sum : Nat) ∧
      ∀ g ∈ segs r', g.idx < b.idx + (durs b.elts).length := by
  rw [readPeriod_block hb hM] at he
  have hf := hb.fits
  have hp := durs_pos hb.ne hb.pos
  have hres := readElts_ok (h.weak hr) hM (by omega) he
  have hlow' : ∀ g ∈ segs r, g.idx < b.idx := by
    cases hi : r.isFirst with
    | false => exact hlow hi
    | true =>
      intro g hg
      cases hn : r.nodes.getLast? with
      | none =>
        have := List.getLast?_eq_none_iff.1 hn
        unfold segs at hg; rw [this] at hg; exact absurd hg List.not_mem_nil
      | some n =>
        have := le_last h hn g hg
        have := hres.first n hn hi
        have := hb.lo
        omega
  obtain ⟨h1, h2⟩ := read_inv h hres hb.ne (fun n hn => ⟨by have := last_lt h hn hlow'; omega, last_lt h hn hlow'⟩) hb.tlo hb.thi hb.small
  refine ⟨h1, h2, hres.ft, hres.lt, fun g hg => ?_⟩
  rw [h2] at hg
  rcases List.mem_append.1 hg with hg | hg
  · have := hlow' g hg; omega
  · have := seq_mem _ _ _ g hg; omega

theorem block_def {r : SL} {sc : Scope} {alloc : Nat} {b : Block} (hb : BlockOk sc b) (hM : sc.max + 1 < 2 ^ 32) (h : Inv true r)
    (hr : ∀ g ∈ segs r, g.idx + 1 < 2 ^ 32) (hlow : r.isFirst = true → ∀ g ∈ segs r, g.idx < sc.min) (ht : r.nodes ≠ [] → r.lastTime ≤ b.time)
    (ha : b.elts.length ≤ alloc) : ∃ r', readPeriod r sc alloc b.bytes (some 0) = .ok r' := by
  rw [readPeriod_block hb hM]
  have hf := hb.fits
  have hp := durs_pos hb.ne hb.pos
  obtain ⟨h1, h2⟩ := readElts_def (alloc := alloc) (h.weak hr) hM (show b.idx ≤ sc.max by omega) hb.ne (Small.of hb.tlo hb.thi)
  have h3 := h2 hb.pos hb.fits ha ht (fun n hn hi => last_lt h hn (hlow hi))
  cases hc : readElts r sc alloc b.idx b.time b.elts with
  | ok r' => exact ⟨r', rfl⟩
  | err => exact absurd hc h3
  | ub => exact absurd hc h1

/-- The blocks as the reader gets them. -/
def onDisk (bs : List Block) : List (List UInt8 × Option Nat) := bs.map fun b => (b.bytes, some 0)

theorem blocks_ok {sc : Scope} {alloc : Nat} (hM : sc.max + 1 < 2 ^ 32) : ∀ (bs : List Block) (r r' : SL), Adj Before bs →
    (∀ b ∈ bs, BlockOk sc b) → Inv true r → (∀ g ∈ segs r, g.idx + 1 < 2 ^ 32) →
    (r.isFirst = false → ∀ b, bs.head? = some b → ∀ g ∈ segs r, g.idx < b.idx) → readBlocks sc alloc r (onDisk bs) = .ok r' →
    Inv true r' ∧ segs r' = segs r ++ bs.flatMap Block.segs
  | [], r, r', _, _, h, _, _, he => by
    injection he with he
    subst he
    exact ⟨h, by simp⟩
  | b :: bs, r, r', ho, hk, h, hr, hl, he => by
    have hb := hk b (List.mem_cons_self ..)
    have hf := hb.fits
    unfold onDisk at he
    rw [List.map_cons, readBlocks] at he
    cases h1 : readPeriod r sc alloc b.bytes (some 0) with
    | err => rw [h1] at he; exact nomatch he
    | ub => rw [h1] at he; exact nomatch he
    | ok r1 =>
      rw [h1] at he
      obtain ⟨q1, q2, q3, q4, q5⟩ := block_ok hb hM h hr (fun hi => hl hi b rfl) h1
      obtain ⟨z1, z2⟩ := blocks_ok hM bs r1 r' (adj_tail ho) (fun x hx => hk x (List.mem_cons_of_mem _ hx)) q1
        (fun g hg => by have := q5 g hg; omega)
        (fun _ c hc g hg => by
          cases bs with
          | nil => exact nomatch hc
          | cons c' bs =>
            injection hc with hc
            subst hc
            have := (adj_cons.1 ho).1.1
            have := q5 g hg
            omega) he
      exact ⟨z1, by rw [z2, q2, List.append_assoc, List.flatMap_cons]⟩

theorem blocks_def {sc : Scope} {alloc : Nat} (hM : sc.max + 1 < 2 ^ 32) : ∀ (bs : List Block) (r : SL), Adj Before bs →
    (∀ b ∈ bs, BlockOk sc b ∧ b.elts.length ≤ alloc) → Inv true r → (∀ g ∈ segs r, g.idx + 1 < 2 ^ 32) →
    (∀ b, bs.head? = some b → (r.isFirst = false → ∀ g ∈ segs r, g.idx < b.idx) ∧ (r.nodes ≠ [] → r.lastTime ≤ b.time)) →
    (r.isFirst = true → ∀ g ∈ segs r, g.idx < sc.min) → ∃ r', readBlocks sc alloc r (onDisk bs) = .ok r'
  | [], r, _, _, _, _, _, _ => ⟨r, rfl⟩
  | b :: bs, r, ho, hk, h, hr, hl, hi => by
    obtain ⟨hb, ha⟩ := hk b (List.mem_cons_self ..)
    have hf := hb.fits
    obtain ⟨l1, l2⟩ := hl b rfl
    obtain ⟨r1, e1⟩ := block_def hb hM h hr hi l2 ha
    obtain ⟨q1, q2, q3, q4, q5⟩ := block_ok hb hM h hr l1 e1
    obtain ⟨r', e2⟩ := blocks_def hM bs r1 (adj_tail ho) (fun x hx => hk x (List.mem_cons_of_mem _ hx)) q1
      (fun g hg => by have := q5 g hg; omega)
      (fun c hc => by
        cases bs with
        | nil => exact nomatch hc
        | cons c' bs =>
          injection hc with hc
          subst hc
          obtain ⟨b1, b2⟩ := (adj_cons.1 ho).1
          exact ⟨fun _ g hg => by have := q5 g hg; omega, fun _ => by omega⟩)
      (fun hh => by rw [q3] at hh; exact nomatch hh)
    refine ⟨r', ?_⟩
    unfold onDisk at e2 ⊢
    rw [List.map_cons, readBlocks, e1]
    exact e2

/-- What was saved, read after other segments. -/
theorem restore_ok {s r r' : SL} {t : Tree} {sc : Scope} {alloc : Nat} {bs : List Block} (h : Inv true s) (ht : TreeOf s t)
    (hb : ∀ g ∈ segs s, g.idx + 1 < 2 ^ 32) (hsc : sc.min ≤ sc.max) (hM : sc.max + 1 < 2 ^ 32) (hw : writePeriods s t sc = .ok bs)
    (hi : Inv true r) (hr : ∀ g ∈ segs r, g.idx + 1 < 2 ^ 32) (he : readList r sc alloc (onDisk bs) = .ok r') :
    Inv true r' ∧ segs r' = segs r ++ range sc (segs s) := by
  obtain ⟨bs', w1, w2⟩ := write_spec h ht hb hsc hM
  rw [hw] at w1
  injection w1 with w1
  subst w1
  rw [← w2.segs]
  exact blocks_ok hM bs { r with isFirst := true } r' w2.order w2.ok ⟨hi.ok, hi.link, hi.last, hi.cn, hi.ce, hi.cs⟩ hr (fun hh => nomatch hh) he

theorem restore_def {s r : SL} {t : Tree} {sc : Scope} {alloc : Nat} {bs : List Block} (h : Inv true s) (ht : TreeOf s t)
    (hb : ∀ g ∈ segs s, g.idx + 1 < 2 ^ 32) (hsc : sc.min ≤ sc.max) (hM : sc.max + 1 < 2 ^ 32) (hw : writePeriods s t sc = .ok bs)
    (ha : ∀ b ∈ bs, b.elts.length ≤ alloc) (hi : Inv true r) (hr : ∀ g ∈ segs r, g.idx < sc.min)
    (hlt : r.nodes ≠ [] → ∀ g ∈ range sc (segs s), r.lastTime ≤ g.time) : ∃ r', readList r sc alloc (onDisk bs) = .ok r' := by
  obtain ⟨bs', w1, w2⟩ := write_spec h ht hb hsc hM
  rw [hw] at w1
  injection w1 with w1
  subst w1
  refine blocks_def hM bs { r with isFirst := true } w2.order (fun b hb => ⟨w2.ok b hb, ha b hb⟩) ⟨hi.ok, hi.link, hi.last, hi.cn, hi.ce, hi.cs⟩
    (fun g hg => by have := hr g hg; omega) (fun b hb => ⟨(fun hh => nomatch hh), fun hne => ?_⟩) (fun _ => hr)
  cases bs with
  | nil => exact nomatch hb
  | cons c bs =>
    injection hb with hb
    subst hb
    have hbo := w2.ok c (List.mem_cons_self ..)
    have hp := durs_pos hbo.ne hbo.pos
    cases hd : durs c.elts with
    | nil => rw [hd] at hp; exact absurd hp (by simp)
    | cons d ds =>
      have : (⟨c.idx, c.time, d⟩ : Seg) ∈ range sc (segs s) := by
        rw [← w2.segs, List.flatMap_cons]
        refine List.mem_append_left _ ?_
        unfold Block.segs
        rw [hd, seq]
        exact List.mem_cons_self ..
      exact hlt hne _ this

end Verif.SegmentList
