import Verif.Fmp4

/-!
# The order of frames in a fragment

Both passes over the frames use the same order; every frame is in it once, in the order of its track.
-/

namespace Verif.Fmp4

/-! ## The chosen stream has a frame -/

theorem chooseGo_some {sel : Option Nat} {cs : List Cur} {i : Nat} {best : Option (Nat × Nat)} {j t : Nat}
    (h : chooseGo sel cs i best = some (j, t)) :
    (∃ t', best = some (j, t')) ∨ ∃ c, cs[j - i]? = some c ∧ i ≤ j ∧ c.left ≠ [] := by
  induction cs generalizing i best with
  | nil => left; exact ⟨t, h⟩
  | cons c cs ih =>
    unfold chooseGo at h
    split at h
    · rcases ih h with h' | ⟨c', h1, h2, h3⟩
      · exact Or.inl h'
      · right
        refine ⟨c', ?_, by omega, h3⟩
        rw [show j - i = (j - (i + 1)) + 1 by omega]
        exact h1
    · rename_i hl
      have key : ∀ b, chooseGo sel cs (i + 1) b = some (j, t) → (∀ t', b = some (j, t') → j = i ∨ ∃ t', best = some (j, t')) →
          (∃ t', best = some (j, t')) ∨ ∃ c', (c :: cs)[j - i]? = some c' ∧ i ≤ j ∧ c'.left ≠ [] := by
        intro b hb hh
        rcases ih hb with ⟨t', h'⟩ | ⟨c', h1, h2, h3⟩
        · rcases hh t' h' with rfl | h''
          · right; refine ⟨c, ?_, Nat.le_refl _, hl⟩; rw [Nat.sub_self]; rfl
          · exact Or.inl h''
        · right
          refine ⟨c', ?_, by omega, h3⟩
          rw [show j - i = (j - (i + 1)) + 1 by omega]
          exact h1
      cases best with
      | none =>
        refine key _ h ?_
        intro t' ht; left; injection ht with ht; injection ht with h1 h2; exact h1.symm
      | some b =>
        refine key _ h ?_
        intro t' ht
        split at ht
        · left; injection ht with ht; injection ht with h1 h2; exact h1.symm
        · right; exact ⟨t', ht⟩

theorem choose_some {sel : Option Nat} {cs : List Cur} {i : Nat} (h : choose sel cs = some i) :
    ∃ c f fs, cs[i]? = some c ∧ c.left = f :: fs := by
  unfold choose at h
  cases hc : chooseGo sel cs 0 none with
  | none => rw [hc] at h; cases h
  | some b =>
    obtain ⟨j, t⟩ := b
    rw [hc] at h
    injection h with h
    simp only at h
    subst h
    rcases chooseGo_some hc with ⟨t', h'⟩ | ⟨c, h1, -, h3⟩
    · cases h'
    · cases hl : c.left with
      | nil => exact absurd hl h3
      | cons f fs => exact ⟨c, f, fs, by simpa using h1, hl⟩

theorem chooseGo_isSome {sel : Option Nat} {cs : List Cur} {i : Nat} {b : Nat × Nat} :
    ∃ b', chooseGo sel cs i (some b) = some b' := by
  induction cs generalizing i b with
  | nil => exact ⟨b, rfl⟩
  | cons c cs ih =>
    unfold chooseGo
    split
    · exact ih
    · simp only
      split <;> exact ih

theorem choose_none {sel : Option Nat} {cs : List Cur} (h : choose sel cs = none) : ∀ c ∈ cs, c.left = [] := by
  have h' : chooseGo sel cs 0 none = none := by
    unfold choose at h
    cases hc : chooseGo sel cs 0 none with
    | none => rfl
    | some b => rw [hc] at h; cases h
  clear h
  suffices ∀ i, chooseGo sel cs i none = none → ∀ c ∈ cs, c.left = [] from this 0 h'
  clear h'
  induction cs with
  | nil => intro i _ c hc; cases hc
  | cons c cs ih =>
    intro i h d hd
    unfold chooseGo at h
    split at h
    · rename_i hl
      rcases List.mem_cons.mp hd with rfl | hd
      · exact hl
      · exact ih _ h d hd
    · simp only at h
      obtain ⟨b', hb⟩ := chooseGo_isSome (sel := sel) (cs := cs) (i := i + 1)
        (b := (i, if sel = some i then c.next else (c.next + c.timescale / 4) % 2 ^ 64))
      rw [hb] at h; cases h

/-! ## The order -/

/-- The stream after its first frame was used. -/
def Cur.tail (c : Cur) : Cur :=
  match c.left with
  | [] => c
  | f :: fs => ⟨c.timescale, fs, (c.next + f.dur) % 2 ^ 64⟩

/-- The order of frames: stream and frame. -/
def order : Nat → Option Nat → List Cur → List (Nat × Frame)
  | 0, _, _ => []
  | n + 1, sel, cs =>
    match choose sel cs with
    | none => []
    | some i =>
      match cs[i]? with
      | none => []
      | some c =>
        match c.left with
        | [] => []
        | f :: _ => (i, f) :: order n (some i) (cs.set i c.tail)

theorem order_none {n : Nat} {sel : Option Nat} {cs : List Cur} (h : choose sel cs = none) : order n sel cs = [] := by
  cases n with
  | zero => rfl
  | succ n => unfold order; rw [h]

theorem order_some {n : Nat} {sel : Option Nat} {cs : List Cur} {i : Nat} {c : Cur} {f : Frame} {fs : List Frame}
    (h : choose sel cs = some i) (hc : cs[i]? = some c) (hl : c.left = f :: fs) :
    order (n + 1) sel cs = (i, f) :: order n (some i) (cs.set i c.tail) := by
  conv => lhs; unfold order
  rw [h]
  simp only [hc, hl]

theorem tail_eq {c : Cur} {f : Frame} {fs : List Frame} (hl : c.left = f :: fs) :
    c.tail = ⟨c.timescale, fs, (c.next + f.dur) % 2 ^ 64⟩ := by
  unfold Cur.tail; rw [hl]

/-- The frames of one stream in an order. -/
def ofStream (i : Nat) (o : List (Nat × Frame)) : List Frame := (o.filter (·.1 = i)).map (·.2)

theorem ofStream_cons_self (i : Nat) (f : Frame) (o : List (Nat × Frame)) : ofStream i ((i, f) :: o) = f :: ofStream i o := by
  unfold ofStream; simp

theorem ofStream_cons_ne {i j : Nat} (h : j ≠ i) (f : Frame) (o : List (Nat × Frame)) : ofStream i ((j, f) :: o) = ofStream i o := by
  unfold ofStream; rw [List.filter_cons_of_neg (by simpa using h)]

theorem framesLeft_set {cs : List Cur} {i : Nat} {c : Cur} {f : Frame} {fs : List Frame} (hc : cs[i]? = some c)
    (hl : c.left = f :: fs) : framesLeft cs = framesLeft (cs.set i c.tail) + 1 := by
  unfold framesLeft
  induction cs generalizing i with
  | nil => cases hc
  | cons d cs ih =>
    cases i with
    | zero =>
      injection hc with hc; subst hc
      rw [tail_eq hl]
      simp only [List.set_cons_zero, List.map_cons, List.sum_cons, hl, List.length_cons]
      omega
    | succ i =>
      have := ih hc
      simp only [List.set_cons_succ, List.map_cons, List.sum_cons]
      omega

theorem le_sum {n : Nat} {l : List Nat} (h : n ∈ l) : n ≤ l.sum := by
  induction l with
  | nil => cases h
  | cons a l ih =>
    rw [List.sum_cons]
    rcases List.mem_cons.mp h with rfl | h
    · omega
    · have := ih h; omega

/-- Every frame of every stream is in the order, in the order of its stream. -/
theorem order_complete {n : Nat} {sel : Option Nat} {cs : List Cur} (h : framesLeft cs ≤ n) (i : Nat) :
    ofStream i (order n sel cs) = (cs[i]?.map (·.left)).getD [] := by
  induction n generalizing sel cs with
  | zero =>
    unfold order ofStream
    cases hc : cs[i]? with
    | none => rfl
    | some c =>
      have hm := List.mem_of_getElem? hc
      have : c.left.length ≤ framesLeft cs := by
        unfold framesLeft
        have : c.left.length ∈ cs.map fun s => s.left.length := List.mem_map.mpr ⟨c, hm, rfl⟩
        exact le_sum this
      have : c.left = [] := List.length_eq_zero_iff.mp (by omega)
      simp [this]
  | succ n ih =>
    cases hch : choose sel cs with
    | none =>
      rw [order_none hch]
      cases hc : cs[i]? with
      | none => rfl
      | some c =>
        have := choose_none hch c (List.mem_of_getElem? hc)
        simp [this, ofStream]
    | some j =>
      obtain ⟨c, f, fs, hc, hl⟩ := choose_some hch
      rw [order_some hch hc hl]
      have hlen := framesLeft_set hc hl
      have ih := ih (sel := some j) (cs := cs.set j c.tail) (by omega)
      by_cases hj : j = i
      · subst hj
        rw [ofStream_cons_self, ih, hc]
        have hjl : j < cs.length := (List.getElem?_eq_some_iff.mp hc).1
        rw [List.getElem?_set_self hjl, tail_eq hl]
        simp [hl]
      · rw [ofStream_cons_ne hj, ih, List.getElem?_set_ne hj]

theorem order_last {n : Nat} {sel : Option Nat} {cs : List Cur} (h : framesLeft cs ≤ n) {o : List (Nat × Frame)} {i : Nat}
    {f : Frame} (ho : order n sel cs = (i, f) :: o) : o = order (n - 1) (some i) (cs.set i (cs[i]?.map Cur.tail |>.getD ⟨0, [], 0⟩)) := by
  cases n with
  | zero => cases ho
  | succ n =>
    cases hch : choose sel cs with
    | none => rw [order_none hch] at ho; cases ho
    | some j =>
      obtain ⟨c, f', fs, hc, hl⟩ := choose_some hch
      rw [order_some hch hc hl] at ho
      injection ho with h1 h2
      injection h1 with h1 h3
      subst h1
      rw [← h2, hc]; rfl

/-! ## The layout -/

/-- Offsets of the frames of stream `i`, when the first frame of the order is at `off`. -/
def offsOf (i : Nat) : Nat → List (Nat × Frame) → List Nat
  | _, [] => []
  | off, (j, f) :: o => if j = i then off :: offsOf i (off + f.size) o else offsOf i (off + f.size) o

/-- Sum of the sizes of an order. -/
def bytesOf (o : List (Nat × Frame)) : Nat := (o.map fun x => x.2.size).sum

theorem bytesOf_cons (x : Nat × Frame) (o : List (Nat × Frame)) : bytesOf (x :: o) = x.2.size + bytesOf o := by
  unfold bytesOf; rfl

/-- Number of atoms `trun` for frames at offsets, when the last frame before ended at `e`. -/
def starts : Option Nat → List (Nat × Nat) → Nat
  | _, [] => 0
  | e, (o, n) :: l => (if e = some o then 0 else 1) + starts (some (o + n)) l

/-- Offsets and sizes of the frames of a stream. -/
def places (i off : Nat) (o : List (Nat × Frame)) : List (Nat × Nat) := (offsOf i off o).zip ((ofStream i o).map (·.size))

theorem places_cons_self (i off : Nat) (f : Frame) (o : List (Nat × Frame)) :
    places i off ((i, f) :: o) = (off, f.size) :: places i (off + f.size) o := by
  unfold places; rw [ofStream_cons_self]
  simp [offsOf]

theorem places_cons_ne {i j : Nat} (h : j ≠ i) (off : Nat) (f : Frame) (o : List (Nat × Frame)) :
    places i off ((j, f) :: o) = places i (off + f.size) o := by
  unfold places; rw [ofStream_cons_ne h]
  simp [offsOf, h]

theorem offsOf_length (i off : Nat) (o : List (Nat × Frame)) : (offsOf i off o).length = (ofStream i o).length := by
  induction o generalizing off with
  | nil => rfl
  | cons x o ih =>
    obtain ⟨j, f⟩ := x
    by_cases h : j = i
    · subst h; rw [ofStream_cons_self]; simp [offsOf, ih]
    · rw [ofStream_cons_ne h]; simp [offsOf, h, ih]

/-- Where the last frame of a stream ended. -/
def Str.ended (s : Str) : Option Nat := if s.lastSize = uintMax then none else s.offs.getLast?.map (· + s.lastSize)

theorem Lay.step_some {l : Lay} {i : Nat} {s : Str} {f : Frame} {fs : List Frame}
    (h : choose l.sel (l.strs.map (·.cur)) = some i) (hs : l.strs[i]? = some s) (hl : s.cur.left = f :: fs) :
    l.step = some ⟨l.strs.set i ⟨s.cur.tail, s.offs ++ [l.off], f.size⟩, some i, (l.off + f.size) % 2 ^ 32,
      if s.starts l.off then l.truns + 1 else l.truns⟩ := by
  unfold Lay.step
  rw [h]
  simp only [hs, hl, tail_eq hl]

theorem Lay.step_none {l : Lay} (h : choose l.sel (l.strs.map (·.cur)) = none) : l.step = none := by
  unfold Lay.step; rw [h]

/-- Number of atoms of all streams from `k` on. -/
def allStarts (off : Nat) (o : List (Nat × Frame)) : Nat → List Str → Nat
  | _, [] => 0
  | k, s :: ss => starts s.ended (places k off o) + allStarts off o (k + 1) ss

theorem allStarts_nil (off k : Nat) (ss : List Str) : allStarts off [] k ss = 0 := by
  induction ss generalizing k with
  | nil => rfl
  | cons s ss ih => unfold allStarts; rw [ih]; rfl

theorem allStarts_skip {off k j : Nat} {f : Frame} {o : List (Nat × Frame)} {ss : List Str} (h : j < k) :
    allStarts off ((j, f) :: o) k ss = allStarts (off + f.size) o k ss := by
  induction ss generalizing k with
  | nil => rfl
  | cons s ss ih =>
    unfold allStarts
    rw [ih (by omega), places_cons_ne (by omega)]

/-- A frame adds an atom exactly when it does not go on where the last one ended. -/
theorem allStarts_set {off k i : Nat} {f : Frame} {o : List (Nat × Frame)} {ss : List Str} {s s' : Str}
    (hs : ss[i]? = some s) (he : s'.ended = some (off + f.size)) :
    allStarts off ((k + i, f) :: o) k ss = (if s.ended = some off then 0 else 1) + allStarts (off + f.size) o k (ss.set i s') := by
  induction ss generalizing k i with
  | nil => cases hs
  | cons d ss ih =>
    cases i with
    | zero =>
      injection hs with hs; subst hs
      rw [List.set_cons_zero]
      simp only [allStarts]
      rw [Nat.add_zero, places_cons_self, allStarts_skip (by omega), he]
      simp only [starts]
      omega
    | succ i =>
      rw [List.set_cons_succ]
      simp only [allStarts]
      rw [places_cons_ne (by omega)]
      have := ih (k := k + 1) (i := i) hs
      rw [show k + 1 + i = k + (i + 1) by omega] at this
      rw [this]
      omega

theorem starts_eq {s : Str} {off : Nat} (h : s.offs.getLast?.map (· + s.lastSize) = none → s.lastSize = uintMax)
    (hlt : ∀ e, s.offs.getLast?.map (· + s.lastSize) = some e → e < 2 ^ 32) :
    s.starts off = true ↔ ¬ s.ended = some off := by
  unfold Str.starts Str.ended
  by_cases hm : s.lastSize = uintMax
  · simp [hm]
  · rw [if_neg hm]
    cases hg : s.offs.getLast? with
    | none => rw [hg] at h; exact absurd (h rfl) hm
    | some o =>
      rw [hg] at hlt
      have := hlt _ rfl
      simp [hm, Nat.mod_eq_of_lt this]

/-- The layout of the rest of the frames. -/
theorem run_layout {n : Nat} {l : Lay} (hn : framesLeft (l.strs.map (·.cur)) ≤ n)
    (hb : l.off + bytesOf (order n l.sel (l.strs.map (·.cur))) < uintMax)
    (hs : ∀ s ∈ l.strs, (s.offs = [] → s.lastSize = uintMax) ∧ ∀ o, s.offs.getLast? = some o → o + s.lastSize ≤ l.off) :
    (∀ i s, l.strs[i]? = some s → ∃ s', (Lay.run n l).strs[i]? = some s' ∧
        s'.offs = s.offs ++ offsOf i l.off (order n l.sel (l.strs.map (·.cur))) ∧
        s'.cur.next = (s.cur.left.foldl (fun t f => (t + f.dur) % 2 ^ 64) s.cur.next)) ∧
      (Lay.run n l).strs.length = l.strs.length ∧
      (Lay.run n l).off = l.off + bytesOf (order n l.sel (l.strs.map (·.cur))) ∧
      (Lay.run n l).truns = l.truns + allStarts l.off (order n l.sel (l.strs.map (·.cur))) 0 l.strs := by
  induction n generalizing l with
  | zero =>
    have h0 : ∀ (i : Nat) (s : Str), l.strs[i]? = some s → s.cur.left = [] := by
      intro i s hi
      have hm : s.cur.left.length ∈ (l.strs.map (fun x => x.cur)).map fun c : Cur => c.left.length :=
        List.mem_map.mpr ⟨s.cur, List.mem_map.mpr ⟨s, List.mem_of_getElem? hi, rfl⟩, rfl⟩
      have := le_sum hm
      unfold framesLeft at hn
      exact List.length_eq_zero_iff.mp (by omega)
    unfold Lay.run order
    refine ⟨?_, rfl, rfl, ?_⟩
    · intro i s hi
      exact ⟨s, hi, by simp [offsOf], by rw [h0 i s hi]; rfl⟩
    · rw [allStarts_nil]; rfl
  | succ n ih =>
    cases hch : choose l.sel (l.strs.map (·.cur)) with
    | none =>
      rw [order_none hch]
      unfold Lay.run
      rw [Lay.step_none hch]
      refine ⟨?_, rfl, rfl, ?_⟩
      · intro i s hi
        have hm : s.cur ∈ l.strs.map (·.cur) := List.mem_map.mpr ⟨s, List.mem_of_getElem? hi, rfl⟩
        exact ⟨s, hi, by simp [offsOf], by rw [choose_none hch _ hm]; rfl⟩
      · rw [allStarts_nil]; rfl
    | some i =>
      obtain ⟨c, f, fs, hc, hl⟩ := choose_some hch
      obtain ⟨s, hs1, rfl⟩ : ∃ s, l.strs[i]? = some s ∧ s.cur = c := by
        rw [List.getElem?_map] at hc
        cases hx : l.strs[i]? with
        | none => rw [hx] at hc; cases hc
        | some s => rw [hx] at hc; injection hc with hc; exact ⟨s, rfl, hc⟩
      have hil : i < l.strs.length := (List.getElem?_eq_some_iff.mp hs1).1
      rw [order_some hch hc hl] at hb ⊢
      rw [bytesOf_cons] at hb ⊢
      simp only at hb ⊢
      have hstep := Lay.step_some hch hs1 hl
      have hfl := framesLeft_set hc hl
      have hoff : (l.off + f.size) % 2 ^ 32 = l.off + f.size := Nat.mod_eq_of_lt (by unfold uintMax at hb; omega)
      rw [hoff] at hstep
      have hmap : (l.strs.set i ⟨s.cur.tail, s.offs ++ [l.off], f.size⟩).map (·.cur) = (l.strs.map (·.cur)).set i s.cur.tail := by
        rw [List.map_set]
      have := ih (l := ⟨l.strs.set i ⟨s.cur.tail, s.offs ++ [l.off], f.size⟩, some i, l.off + f.size,
        if s.starts l.off then l.truns + 1 else l.truns⟩)
        (by simp only; rw [hmap]; omega)
        (by simp only; rw [hmap]; omega)
        (by
          intro s' hs'
          simp only at hs' ⊢
          rcases List.mem_or_eq_of_mem_set hs' with h' | rfl
          · obtain ⟨h1, h2⟩ := hs s' h'
            exact ⟨h1, fun o ho => by have := h2 o ho; omega⟩
          · refine ⟨by simp, ?_⟩
            intro o ho
            rw [List.getLast?_append] at ho
            simp at ho
            subst ho
            simp only
            omega)
      simp only at this
      rw [hmap] at this
      obtain ⟨h1, h2, h3, h4⟩ := this
      have hrun : Lay.run (n + 1) l = Lay.run n ⟨l.strs.set i ⟨s.cur.tail, s.offs ++ [l.off], f.size⟩, some i, l.off + f.size,
        if s.starts l.off then l.truns + 1 else l.truns⟩ := by
        conv => lhs; unfold Lay.run
        rw [hstep]
      rw [hrun]
      refine ⟨?_, ?_, ?_, ?_⟩
      · intro j t hj
        by_cases hji : i = j
        · subst hji
          rw [hs1] at hj; injection hj with hj; subst hj
          obtain ⟨s', e1, e2, e3⟩ := h1 i ⟨s.cur.tail, s.offs ++ [l.off], f.size⟩ (by rw [List.getElem?_set_self hil])
          refine ⟨s', e1, ?_, ?_⟩
          · rw [e2]; simp [offsOf]
          · rw [e3, tail_eq hl, hl]; rfl
        · obtain ⟨s', e1, e2, e3⟩ := h1 j t (by rw [List.getElem?_set_ne hji]; exact hj)
          refine ⟨s', e1, ?_, e3⟩
          rw [e2]; simp [offsOf, hji]
      · rw [h2, List.length_set]
      · rw [h3]; omega
      · rw [h4]
        have hsi := hs s (List.mem_of_getElem? hs1)
        have hset := allStarts_set (off := l.off) (k := 0) (f := f) (o := order n (some i) ((l.strs.map (·.cur)).set i s.cur.tail))
          (s' := ⟨s.cur.tail, s.offs ++ [l.off], f.size⟩) hs1
          (by
            unfold Str.ended
            simp only
            rw [if_neg (by omega), List.getLast?_append]
            rfl)
        rw [Nat.zero_add] at hset
        rw [hset]
        have heq := starts_eq (s := s) (off := l.off)
          (by
            intro hx
            cases hg : s.offs.getLast? with
            | none => exact hsi.1 (List.getLast?_eq_none_iff.mp hg)
            | some o => rw [hg] at hx; cases hx)
          (by
            intro e he
            cases hg : s.offs.getLast? with
            | none => rw [hg] at he; cases he
            | some o =>
              rw [hg] at he; injection he with he
              simp only at he
              have := hsi.2 o hg
              unfold uintMax at hb
              omega)
        by_cases hst : s.starts l.off = true
        · rw [if_pos hst, if_neg (heq.mp hst)]; omega
        · rw [if_neg hst]
          have : s.ended = some l.off := Classical.byContradiction fun h => hst (heq.mpr h)
          rw [if_pos this]; omega

end Verif.Fmp4
