import Verif.SegmentInfoProps

/-!
# C37 and C38: bitrates and gaps in the packager
-/

namespace Verif.SegmentInfo

/-! ## Spec -/

/-- How many segments of a range have no media. -/
def gapsIn (v : Nat → Nat) (first last : Nat) : Nat := ((List.range' first (last - first)).filter fun i => v i == 0).length

/-- The bitrate of a segment over all tracks, from the bitrate of each: the placeholder when one of them has it, otherwise the sum
of the estimates of those that have media. -/
def total (vs : List Nat) (ests : List (Nat → Nat)) : Nat :=
  if 1 ∈ vs then 1 else ((vs.zip ests).map fun p => if p.1 = 0 then 0 else p.2 p.1).sum % 2 ^ 32

/-! ## One track -/

/-- An iterator over `es` that has passed only elements up to `k`. -/
def It (es : List Elt) (it : PIter) (k : Nat) : Prop :=
  ∃ a, es = a ++ it.rest ∧ (∀ e ∈ a, e.idx ≤ k) ∧ it.bitrate = valAt noBitrate a k

theorem It.init (es : List Elt) : It es (pinit es) 0 := ⟨[], rfl, by simp, rfl⟩

theorem valAt_up {a : List Elt} {k i : Nat} (h : ∀ e ∈ a, e.idx ≤ k) (hi : k ≤ i) (b : Nat) : valAt b a i = valAt b a k := by
  rw [valAt_le a b k h, valAt_le a b i (fun e he => by have := h e he; omega)]

theorem It.mono {es : List Elt} {it : PIter} {k i : Nat} (h : It es it k) (hi : k ≤ i) : It es it i := by
  obtain ⟨a, e1, e2, e3⟩ := h
  exact ⟨a, e1, fun e he => by have := e2 e he; omega, by rw [e3, valAt_up e2 hi]⟩

theorem It.val {es : List Elt} {it : PIter} {k i : Nat} (h : It es it k) (hi : k ≤ i) :
    valAt noBitrate es i = valAt it.bitrate it.rest i := by
  obtain ⟨a, e1, e2, e3⟩ := h
  rw [e1, valAt_append, valAt_up e2 hi, ← e3]

theorem padvance_spec (x : Nat) : ∀ (l : List Elt) (b : Nat), Sorted l → ∃ a, l = a ++ (padvance x l b).rest ∧
    (∀ e ∈ a, e.idx ≤ x) ∧ (padvance x l b).bitrate = valAt b a x ∧ ∀ e ∈ (padvance x l b).rest, x < e.idx
  | [], b, _ => ⟨[], rfl, by simp, rfl, by simp [padvance]⟩
  | e :: l, b, hs => by
    have h1 := List.pairwise_cons.1 hs
    rw [padvance]
    by_cases hc : e.idx ≤ x
    · rw [if_pos hc]
      obtain ⟨a, e1, e2, e3, e4⟩ := padvance_spec x l e.bitrate h1.2
      refine ⟨e :: a, by rw [List.cons_append, ← e1], ?_, by rw [e3, valAt, if_pos hc], e4⟩
      intro y hy
      rcases List.mem_cons.1 hy with rfl | hy
      · exact hc
      · exact e2 y hy
    · rw [if_neg hc]
      refine ⟨[], rfl, by simp, rfl, ?_⟩
      intro y hy
      rcases List.mem_cons.1 hy with rfl | hy
      · omega
      · have := h1.1 y hy; omega

theorem It.sorted {es : List Elt} {it : PIter} {k : Nat} (h : It es it k) (hs : Sorted es) : Sorted it.rest := by
  obtain ⟨a, e1, _⟩ := h
  rw [e1] at hs
  exact (List.pairwise_append.1 hs).2.1

theorem It.advance {es : List Elt} {it : PIter} {k : Nat} (h : It es it k) (hs : Sorted es) {x : Nat} (hx : k ≤ x) :
    It es (padvance x it.rest it.bitrate) x ∧ (padvance x it.rest it.bitrate).bitrate = valAt noBitrate es x ∧
      ∀ e ∈ (padvance x it.rest it.bitrate).rest, x < e.idx := by
  obtain ⟨a, e1, e2, e3⟩ := h.mono hx
  obtain ⟨c, c1, c2, c3, c4⟩ := padvance_spec x it.rest it.bitrate (h.sorted hs)
  have hI : It es (padvance x it.rest it.bitrate) x := by
    refine ⟨a ++ c, by rw [List.append_assoc, ← c1, ← e1], ?_, ?_⟩
    · intro e he
      rcases List.mem_append.1 he with he | he
      · exact e2 e he
      · exact c2 e he
    · rw [c3, e3, valAt_append]
  refine ⟨hI, ?_, c4⟩
  rw [hI.val (Nat.le_refl _), valAt_gt _ _ _ c4]

theorem gapsIn_split (v : Nat → Nat) {a b c : Nat} (h1 : a ≤ b) (h2 : b ≤ c) : gapsIn v a c = gapsIn v a b + gapsIn v b c := by
  unfold gapsIn
  have : List.range' a (c - a) = List.range' a (b - a) ++ List.range' b (c - b) := by
    have := List.range'_append (s := a) (m := b - a) (n := c - b) (step := 1)
    rw [show a + 1 * (b - a) = b by omega, show b - a + (c - b) = c - a by omega] at this
    rw [this]
  rw [this, List.filter_append, List.length_append]

theorem gapsIn_congr {v w : Nat → Nat} {a b : Nat} (h : ∀ i, a ≤ i → i < b → v i = w i) : gapsIn v a b = gapsIn w a b := by
  unfold gapsIn
  congr 1
  apply List.filter_congr
  intro i hi
  have := List.mem_range'_1.1 hi
  rw [h i (by omega) (by omega)]

theorem gapsIn_const (b : Nat) {first last : Nat} : gapsIn (fun _ => b) first last = if b = 0 then last - first else 0 := by
  unfold gapsIn
  by_cases hb : b = 0
  · rw [if_pos hb, List.filter_eq_self.2 (fun i _ => by simpa using hb), List.length_range']
  · rw [if_neg hb, List.filter_eq_nil_iff.2 (fun i _ => by simpa using hb)]; rfl

theorem pgaps_spec (last : Nat) : ∀ (l : List Elt) (start b n : Nat), Sorted l → (∀ e ∈ l, start < e.idx) → start ≤ last →
    (pgaps last start b l n).1 = n + gapsIn (valAt b l) start last ∧
    ∃ a, l = a ++ (pgaps last start b l n).2.rest ∧ (∀ e ∈ a, e.idx ≤ max start (last - 1)) ∧
      (pgaps last start b l n).2.bitrate = valAt b a (max start (last - 1))
  | [], start, b, n, _, _, hle => by
    rw [pgaps]
    refine ⟨?_, [], rfl, by simp, rfl⟩
    have : gapsIn (valAt b []) start last = gapsIn (fun _ => b) start last := gapsIn_congr fun _ _ _ => rfl
    rw [this, gapsIn_const]
    dsimp only; split <;> omega
  | e :: l, start, b, n, hs, hst, hle => by
    have h1 := List.pairwise_cons.1 hs
    have h0 := hst e (by simp)
    rw [pgaps]
    by_cases hc : e.idx ≥ last
    · rw [if_pos hc]
      refine ⟨?_, [], rfl, by simp, rfl⟩
      have : gapsIn (valAt b (e :: l)) start last = gapsIn (fun _ => b) start last := gapsIn_congr fun i _ hi => valAt_gt _ _ _ (by
        intro y hy
        rcases List.mem_cons.1 hy with rfl | hy
        · omega
        · have := h1.1 y hy; omega)
      rw [this, gapsIn_const]
      dsimp only; split <;> omega
    · rw [if_neg hc]
      obtain ⟨e1, a, e2, e3, e4⟩ := pgaps_spec last l e.idx e.bitrate (if b = 0 then n + (e.idx - start) else n) h1.2 h1.1 (by omega)
      refine ⟨?_, e :: a, by rw [List.cons_append, ← e2], ?_, ?_⟩
      · rw [e1, gapsIn_split (valAt b (e :: l)) (Nat.le_of_lt h0) (by omega : e.idx ≤ last)]
        have g1 : gapsIn (valAt b (e :: l)) start e.idx = gapsIn (fun _ => b) start e.idx := gapsIn_congr fun i _ hi => valAt_gt _ _ _ (by
          intro y hy
          rcases List.mem_cons.1 hy with rfl | hy
          · omega
          · have := h1.1 y hy; omega)
        have g2 : gapsIn (valAt b (e :: l)) e.idx last = gapsIn (valAt e.bitrate l) e.idx last := gapsIn_congr fun i hi _ => by
          rw [valAt, if_pos hi]
        rw [g1, g2, gapsIn_const]
        split <;> omega
      · intro y hy
        rcases List.mem_cons.1 hy with rfl | hy
        · omega
        · have := e3 y hy; omega
      · rw [e4, valAt, if_pos (by omega), show max e.idx (last - 1) = max start (last - 1) by omega]

theorem It.gaps {es : List Elt} {it : PIter} {k : Nat} (h : It es it k) (hs : Sorted es) {first last : Nat} (hx : k ≤ first)
    (hl : first ≤ last) : (pgapCount it first last).1 = gapsIn (valAt noBitrate es) first last ∧ It es (pgapCount it first last).2 last := by
  obtain ⟨h1, h2, h3⟩ := h.advance hs hx
  unfold pgapCount
  dsimp only
  obtain ⟨e1, a, e2, e3, e4⟩ := pgaps_spec last (padvance first it.rest it.bitrate).rest first (padvance first it.rest it.bitrate).bitrate 0
    (h1.sorted hs) h3 hl
  constructor
  · rw [e1, Nat.zero_add]
    exact gapsIn_congr fun i hi _ => (h1.val hi).symm
  · have hm : max first (last - 1) ≤ last := by omega
    refine It.mono (k := max first (last - 1)) ?_ hm
    obtain ⟨c, c1, c2, c3⟩ := h1
    refine ⟨c ++ a, by rw [List.append_assoc, ← e2, ← c1], ?_, ?_⟩
    · intro e he
      rcases List.mem_append.1 he with he | he
      · have := c2 e he; omega
      · exact e3 e he
    · rw [e4, c3, valAt_append, valAt_up (a := c) (k := first) (i := max first (last - 1)) c2 (by omega)]

/-! ## All tracks -/

def Its : List (List Elt) → List PIter → Nat → Prop
  | [], [], _ => True
  | es :: ess, it :: its, k => It es it k ∧ Its ess its k
  | _, _, _ => False

theorem Its.init : ∀ (ess : List (List Elt)), Its ess (ess.map pinit) 0
  | [] => True.intro
  | es :: ess => ⟨It.init es, Its.init ess⟩

theorem Its.mono : ∀ {ess : List (List Elt)} {its : List PIter} {k i : Nat}, Its ess its k → k ≤ i → Its ess its i
  | [], [], _, _, _, _ => True.intro
  | [], _ :: _, _, _, h, _ => h.elim
  | _ :: _, [], _, _, h, _ => h.elim
  | _ :: _, _ :: _, _, _, h, hi => ⟨h.1.mono hi, Its.mono h.2 hi⟩

theorem mget_its (x : Nat) : ∀ (ess : List (List Elt)) (its : List PIter) (ests : List (Nat → Nat)) (acc k : Nat),
    (∀ es ∈ ess, Sorted es) → Its ess its k → k ≤ x → Its ess (mget x its ests acc).2 x
  | [], [], _, _, _, _, _, _ => by simp [mget, Its]
  | [], _ :: _, _, _, _, _, h, _ => h.elim
  | _ :: _, [], _, _, _, _, h, _ => h.elim
  | es :: ess, it :: its, [], _, _, _, h, hx => by rw [mget]; exact Its.mono h hx; simp
  | es :: ess, it :: its, est :: ests, acc, k, hs, h, hx => by
    rw [mget]
    dsimp only
    have h1 := (h.1.advance (hs es (by simp)) hx).1
    split
    · exact ⟨h1, Its.mono h.2 hx⟩
    · exact ⟨h1, mget_its x ess its ests _ k (fun e he => hs e (by simp [he])) h.2 hx⟩

theorem mget_val (x : Nat) : ∀ (ess : List (List Elt)) (its : List PIter) (ests : List (Nat → Nat)) (acc k : Nat),
    (∀ es ∈ ess, Sorted es) → Its ess its k → k ≤ x → ests.length = ess.length → acc < 2 ^ 32 →
    (mget x its ests acc).1 = if 1 ∈ ess.map (valAt noBitrate · x) then 1 else
      (acc + (((ess.map (valAt noBitrate · x)).zip ests).map fun p => if p.1 = 0 then 0 else p.2 p.1).sum) % 2 ^ 32
  | [], [], _, _, _, _, _, _, _, ha => by simp [mget, Nat.mod_eq_of_lt ha]
  | [], _ :: _, _, _, _, _, h, _, _, _ => h.elim
  | _ :: _, [], _, _, _, _, h, _, _, _ => h.elim
  | es :: ess, it :: its, [], _, _, _, _, _, hl, _ => by simp at hl
  | es :: ess, it :: its, est :: ests, acc, k, hs, h, hx, hl, ha => by
    rw [mget]
    dsimp only
    have h1 : (pget it x).1 = valAt noBitrate es x := (h.1.advance (hs es (by simp)) hx).2.1
    rw [h1]
    simp only [List.map_cons, List.zip_cons_cons, List.sum_cons, List.mem_cons]
    by_cases hb : valAt noBitrate es x = noBitrate
    · rw [if_pos hb, if_pos (.inl hb.symm)]; rfl
    · rw [if_neg hb]
      dsimp only
      have h2 : ((1 = valAt noBitrate es x ∨ 1 ∈ ess.map (valAt noBitrate · x)) : Prop) = (1 ∈ ess.map (valAt noBitrate · x)) := by
        apply propext
        constructor
        · rintro (h | h)
          · exact absurd h.symm hb
          · exact h
        · exact .inr
      rw [mget_val x ess its ests _ k (fun e he => hs e (by simp [he])) h.2 hx (by simpa using hl) (by split; exact ha; exact Nat.mod_lt _ (by decide))]
      simp only [h2]
      by_cases hm : 1 ∈ ess.map (valAt noBitrate · x)
      · rw [if_pos hm, if_pos hm]
      · rw [if_neg hm, if_neg hm]
        by_cases hz : valAt noBitrate es x = 0
        · rw [if_pos hz, if_pos hz]; omega
        · rw [if_neg hz, if_neg hz, Nat.mod_add_mod]; congr 1; omega

/-- The segments of a manifest one after the other. -/
def mgets (ests : Nat → List (Nat → Nat)) : List Nat → List PIter → List Nat
  | [], _ => []
  | x :: xs, its => (mget x its (ests x) 0).1 :: mgets ests xs (mget x its (ests x) 0).2

theorem mgets_spec (ests : Nat → List (Nat → Nat)) {ess : List (List Elt)} (hs : ∀ es ∈ ess, Sorted es)
    (hl : ∀ x, (ests x).length = ess.length) : ∀ (xs : List Nat) (its : List PIter) (k : Nat), Its ess its k →
    (∀ x ∈ xs, k ≤ x) → (xs.Pairwise fun a b => a ≤ b) →
    mgets ests xs its = xs.map fun x => total (ess.map (valAt noBitrate · x)) (ests x)
  | [], _, _, _, _, _ => rfl
  | x :: xs, its, k, h, hk, hp => by
    have h1 := List.pairwise_cons.1 hp
    rw [mgets, mget_val x ess its (ests x) 0 k hs h (hk x (by simp)) (hl x) (by decide), Nat.zero_add]
    rw [mgets_spec ests hs hl xs _ x (mget_its x ess its (ests x) 0 k hs h (hk x (by simp))) h1.1 h1.2]
    rfl

/-! ## C37 -/

theorem served_sorted {s : Track} (h : WF s.nodes) : Sorted (writeServe s) := by
  have hs := h.sorted
  unfold writeServe
  have : s.nodes.flatMap (·.elts) = elts s.nodes := rfl
  rw [this]
  cases he : elts s.nodes with
  | nil => simp [Sorted]
  | cons e es =>
    dsimp only
    rw [he] at hs
    split
    · rename_i hc
      refine List.pairwise_cons.2 ⟨?_, hs⟩
      intro y hy
      show 0 < y.idx
      rcases List.mem_cons.1 hy with rfl | hy
      · exact hc
      · have := (List.pairwise_cons.1 hs).1 y hy; omega
    · exact hs

theorem served_val (s : Track) (i : Nat) : valAt noBitrate (writeServe s) i = val s i := by
  unfold writeServe val
  have : s.nodes.flatMap (·.elts) = elts s.nodes := rfl
  rw [this]
  cases he : elts s.nodes with
  | nil => simp [valAt]
  | cons e es =>
    dsimp only
    split
    · rw [valAt, if_pos (Nat.zero_le _)]
    · rw [valAt, valAt, if_pos (by omega), if_pos (by omega)]

/-- C37. For segments in order the packager gets, from what the tracks served, the bitrate over all tracks that the values of the
tracks give; each value is one that may be reported for the segment. -/
theorem packager_bitrates {c : Conf} (hc : ConfOk c) (ts : List (Track × List Rec × Nat)) (h : ∀ t ∈ ts, Reach c t.1 t.2.1 t.2.2)
    (ests : Nat → List (Nat → Nat)) (hl : ∀ x, (ests x).length = ts.length) (xs : List Nat) (hp : xs.Pairwise fun a b => a ≤ b) :
    ∃ v : Nat → Nat → Nat,
      mgets ests xs (ts.map fun t => pinit (writeServe t.1)) = xs.map (fun x => total ((List.range ts.length).map (v · x)) (ests x)) ∧
      ∀ j t, ts[j]? = some t → ∀ x, t.2.2 ≤ x → Reported c t.2.1 x (v j x) := by
  refine ⟨fun j x => match ts[j]? with | none => 0 | some t => val t.1 x, ?_, ?_⟩
  · have hmap : ∀ x, (List.range ts.length).map (fun j => match ts[j]? with | none => 0 | some t => val t.1 x) =
        (ts.map fun t => writeServe t.1).map (valAt noBitrate · x) := by
      intro x
      apply List.ext_getElem?
      intro j
      rw [List.map_map, List.getElem?_map, List.getElem?_map]
      rcases Nat.lt_or_ge j ts.length with hj | hj
      · rw [List.getElem?_range hj, List.getElem?_eq_getElem hj]
        simp only [Option.map_some, List.getElem?_eq_getElem hj, Function.comp]
        rw [served_val]
      · rw [List.getElem?_eq_none (by simpa using hj), List.getElem?_eq_none hj]; rfl
    have := mgets_spec ests (ess := ts.map fun t => writeServe t.1) (by
      intro es he
      obtain ⟨t, ht, rfl⟩ := List.mem_map.1 he
      exact served_sorted (reach_inv hc (h t ht)).wf) (by simpa using hl) xs _ 0 (Its.init _) (by simp) hp
    rw [List.map_map] at this
    rw [show (fun t : Track × List Rec × Nat => pinit (writeServe t.1)) = pinit ∘ fun t => writeServe t.1 from rfl, this]
    apply List.map_congr_left
    intro x _
    dsimp only
    rw [hmap]
  · intro j t ht x hx
    dsimp only
    rw [ht]
    exact (reach_inv hc (h t (List.mem_of_getElem? ht))).rep x hx

/-- C37. With gap tracking a segment is a gap for the packager, in a track, exactly when the last segment up to it has no media. -/
theorem packager_gap {c : Conf} (hc : ConfOk c) (hg : c.gaps = true) {H : List Rec} {x v : Nat} (h : Reported c H x v) :
    v = 0 ↔ ∀ r, lastRec c H x = some r → r.b = 0 := by
  unfold Reported at h
  cases hl : lastRec c H x with
  | none =>
    rw [hl] at h; dsimp only at h
    have hb : before c = 0 := by unfold before; rw [if_pos hg]
    rw [hb] at h
    exact ⟨(fun _ r hr => by cases hr), fun _ => h⟩
  | some r =>
    rw [hl] at h; dsimp only at h
    rw [close_zero hc h]
    constructor
    · intro hb r' hr; injection hr with hr; rw [← hr]; exact hb
    · intro h5; exact h5 r rfl

/-! ## C38 -/

theorem mgaps_its (first last : Nat) : ∀ (ess : List (List Elt)) (its : List PIter) (acc k : Nat),
    (∀ es ∈ ess, Sorted es) → Its ess its k → k ≤ first → first ≤ last →
    Its ess (mgaps first last its acc).2 last ∧ (mgaps first last its acc).1 ≤ acc ∧
    (∀ es ∈ ess, (mgaps first last its acc).1 ≤ gapsIn (valAt noBitrate es) first last) ∧
    ((mgaps first last its acc).1 = acc ∨ ∃ es ∈ ess, (mgaps first last its acc).1 = gapsIn (valAt noBitrate es) first last)
  | [], [], _, _, _, _, _, _ => by simp [mgaps, Its]
  | [], _ :: _, _, _, _, h, _, _ => h.elim
  | _ :: _, [], _, _, _, h, _, _ => h.elim
  | es :: ess, it :: its, acc, k, hs, h, hk, hl => by
    obtain ⟨h1, h2⟩ := h.1.gaps (hs es (by simp)) hk hl
    rw [mgaps]
    dsimp only
    rw [h1]
    obtain ⟨i1, i2, i3, i4⟩ := mgaps_its first last ess its
      (if acc > gapsIn (valAt noBitrate es) first last then gapsIn (valAt noBitrate es) first last else acc) k
      (fun e he => hs e (by simp [he])) h.2 hk hl
    have hle : (if acc > gapsIn (valAt noBitrate es) first last then gapsIn (valAt noBitrate es) first last else acc) ≤ acc ∧
        (if acc > gapsIn (valAt noBitrate es) first last then gapsIn (valAt noBitrate es) first last else acc) ≤
          gapsIn (valAt noBitrate es) first last := by split <;> omega
    refine ⟨⟨h2, i1⟩, by omega, ?_, ?_⟩
    · intro e he
      rcases List.mem_cons.1 he with rfl | he
      · omega
      · exact i3 e he
    · rcases i4 with i4 | ⟨e, he, i4⟩
      · rw [i4]
        split
        · exact .inr ⟨es, by simp, rfl⟩
        · exact .inl rfl
      · exact .inr ⟨e, by simp [he], i4⟩

/-- Periods in order, the first one not before `k`, within 32 bit. -/
def Periods : Nat → List (Nat × Nat) → Prop
  | _, [] => True
  | k, (first, count) :: ps => k ≤ first ∧ first + count < 2 ^ 32 ∧ Periods (first + count) ps

/-- The segments that are written for the periods: a part of each. -/
def Written : List (Nat × Nat) → List Nat → Prop
  | [], xs => xs = []
  | (first, count) :: ps, xs => ∃ a n ys, first ≤ a ∧ a + n ≤ first + count ∧ xs = List.range' a n ++ ys ∧ Written ps ys

/-- All tracks have a gap. -/
def allGap (ess : List (List Elt)) (x : Nat) : Bool := ess.all fun es => valAt noBitrate es x == 0

/-- No track has a bitrate. -/
def NoBitrates (ess : List (List Elt)) : Prop := ∀ es ∈ ess, ∀ e ∈ es, e.bitrate = 0 ∨ e.bitrate = 1

theorem mhas_false {ess : List (List Elt)} (h : mhas (ess.map pinit) = false) : NoBitrates ess := by
  intro es he e hee
  unfold mhas at h
  rw [List.any_eq_false] at h
  have h1 := h (pinit es) (List.mem_map.2 ⟨es, he, rfl⟩)
  unfold phas at h1
  rw [Bool.not_eq_true, List.any_eq_false] at h1
  have h2 := h1 e hee
  simp [noBitrate] at h2
  by_cases hz : e.bitrate = 0
  · exact .inl hz
  · exact .inr (h2 hz)

theorem noBitrates_val {ess : List (List Elt)} (h : NoBitrates ess) {es : List Elt} (he : es ∈ ess) (x : Nat) :
    valAt noBitrate es x = 0 ∨ valAt noBitrate es x = 1 := by
  rcases valAt_mem es noBitrate x with h1 | ⟨e, h1, _, h2⟩
  · exact .inr h1
  · rw [h2]; exact h es he e h1

theorem mget_gap {ess : List (List Elt)} (hn : NoBitrates ess) (hs : ∀ es ∈ ess, Sorted es) {its : List PIter} {ests : List (Nat → Nat)}
    (hl : ests.length = ess.length) {x k : Nat} (h : Its ess its k) (hk : k ≤ x) :
    (mget x its ests 0).1 = 0 ↔ allGap ess x = true := by
  rw [mget_val x ess its ests 0 k hs h hk hl (by decide), Nat.zero_add]
  unfold allGap
  rw [List.all_eq_true]
  by_cases hm : 1 ∈ ess.map (valAt noBitrate · x)
  · rw [if_pos hm]
    obtain ⟨es, he, e1⟩ := List.mem_map.1 hm
    refine ⟨fun h => by omega, fun h5 => ?_⟩
    have := h5 es he
    simp at this; omega
  · rw [if_neg hm]
    have hall : ∀ es ∈ ess, valAt noBitrate es x = 0 := fun es he => by
      rcases noBitrates_val hn he x with h1 | h1
      · exact h1
      · exact absurd (List.mem_map.2 ⟨es, he, h1⟩) hm
    refine ⟨fun _ es he => by simpa using hall es he, fun _ => ?_⟩
    have hz : ∀ (l : List (Nat × (Nat → Nat))), (∀ p ∈ l, p.1 = 0) → (l.map fun p => if p.1 = 0 then 0 else p.2 p.1).sum = 0 := by
      intro l
      induction l with
      | nil => intro _; rfl
      | cons p l ih =>
        intro hp
        rw [List.map_cons, List.sum_cons, if_pos (hp p (by simp)), ih (fun q hq => hp q (by simp [hq]))]
    rw [hz]
    intro p hp
    have := List.of_mem_zip hp
    obtain ⟨es, he, e1⟩ := List.mem_map.1 this.1
    rw [← e1]; exact hall es he

theorem gapTags_spec {ess : List (List Elt)} (hn : NoBitrates ess) (hs : ∀ es ∈ ess, Sorted es) (ests : Nat → List (Nat → Nat))
    (hl : ∀ x, (ests x).length = ess.length) : ∀ (xs : List Nat) (its : List PIter) (n k : Nat), Its ess its k → (∀ x ∈ xs, k ≤ x) →
    (xs.Pairwise fun a b => a ≤ b) → (gapTags ests xs its n).1 = n + (xs.filter (allGap ess)).length
  | [], _, _, _, _, _, _ => rfl
  | x :: xs, its, n, k, h, hk, hp => by
    have h1 := List.pairwise_cons.1 hp
    rw [gapTags]
    rw [gapTags_spec hn hs ests hl xs _ _ x (mget_its x ess its (ests x) 0 k hs h (hk x (by simp))) h1.1 h1.2]
    have hg := mget_gap hn hs (hl x) h (hk x (by simp))
    by_cases hc : (mget x its (ests x) 0).1 = 0
    · rw [if_pos hc, List.filter_cons_of_pos (hg.1 hc), List.length_cons]; omega
    · rw [if_neg hc, List.filter_cons_of_neg (fun h5 => hc (hg.2 h5))]

theorem written_ge : ∀ (ps : List (Nat × Nat)) (k : Nat) (xs : List Nat), Periods k ps → Written ps xs →
    (∀ x ∈ xs, k ≤ x) ∧ xs.Pairwise fun a b => a ≤ b
  | [], _, xs, _, hw => by
    have : xs = [] := hw
    subst this; simp
  | (first, count) :: ps, k, xs, hp, hw => by
    obtain ⟨a, n, ys, h1, h2, rfl, h3⟩ := hw
    obtain ⟨i1, i2⟩ := written_ge ps (first + count) ys hp.2.2 h3
    have hp1 := hp.1
    refine ⟨fun x hx => ?_, List.pairwise_append.2 ⟨?_, i2, ?_⟩⟩
    · rcases List.mem_append.1 hx with hx | hx
      · have := List.mem_range'_1.1 hx; omega
      · have := i1 x hx; omega
    · exact (List.pairwise_lt_range').imp (fun h => Nat.le_of_lt h)
    · intro x hx y hy
      have := List.mem_range'_1.1 hx; have := i1 y hy; omega

theorem part_le {ess : List (List Elt)} {a n first last : Nat} (h1 : first ≤ a) (h2 : a + n ≤ last) {es : List Elt} (he : es ∈ ess) :
    ((List.range' a n).filter (allGap ess)).length ≤ gapsIn (valAt noBitrate es) first last := by
  have h3 : ((List.range' a n).filter (allGap ess)).length ≤ gapsIn (valAt noBitrate es) a (a + n) := by
    unfold gapsIn
    rw [show a + n - a = n by omega]
    generalize List.range' a n = l
    induction l with
    | nil => exact Nat.le_refl _
    | cons x l ih =>
      by_cases hx : allGap ess x = true
      · have hv := List.all_eq_true.1 hx es he
        rw [List.filter_cons_of_pos hx, List.filter_cons_of_pos (p := fun i => valAt noBitrate es i == 0) hv]
        exact Nat.succ_le_succ ih
      · rw [List.filter_cons_of_neg hx, List.filter_cons]
        split
        · exact Nat.le_succ_of_le ih
        · exact ih
  rw [gapsIn_split (valAt noBitrate es) h1 (by omega : a ≤ last), gapsIn_split (valAt noBitrate es) (by omega : a ≤ a + n) h2]
  omega

theorem gapsIn_le (v : Nat → Nat) (a b : Nat) : gapsIn v a b ≤ b - a := by
  unfold gapsIn
  have := List.length_filter_le (fun i => v i == 0) (List.range' a (b - a))
  rw [List.length_range'] at this; exact this

theorem room_ge {ess : List (List Elt)} (hne : ess ≠ []) (hs : ∀ es ∈ ess, Sorted es) : ∀ (ps : List (Nat × Nat)) (k : Nat) (xs : List Nat)
    (its : List PIter) (tot : Nat), Periods k ps → Written ps xs → Its ess its k → tot ≤ k → k < 2 ^ 32 →
    tot + (xs.filter (allGap ess)).length ≤ gapRoom ps its tot
  | [], _, xs, _, _, _, hw, _, _, _ => by
    have : xs = [] := hw
    subst this; simp [gapRoom]
  | (first, count) :: ps, k, xs, its, tot, hp, hw, hi, htk, hk => by
    obtain ⟨a, n, ys, h1, h2, rfl, h3⟩ := hw
    obtain ⟨p1, p2, p3⟩ := hp
    rw [gapRoom]
    rw [Nat.mod_eq_of_lt p2]
    obtain ⟨m1, m2, m3, m4⟩ := mgaps_its first (first + count) ess its (2 ^ 32 - 1) k hs hi p1 (by omega)
    have hb : (mgaps first (first + count) its (2 ^ 32 - 1)).1 ≤ count := by
      obtain ⟨es, he⟩ := List.exists_mem_of_ne_nil _ hne
      have := m3 es he
      have := gapsIn_le (valAt noBitrate es) first (first + count)
      omega
    have hpart : ((List.range' a n).filter (allGap ess)).length ≤ (mgaps first (first + count) its (2 ^ 32 - 1)).1 := by
      rcases m4 with m4 | ⟨es, he, m4⟩
      · rw [m4]
        have := List.length_filter_le (allGap ess) (List.range' a n)
        rw [List.length_range'] at this
        omega
      · rw [m4]; exact part_le h1 h2 he
    rw [Nat.mod_eq_of_lt (by omega)]
    have ih := room_ge hne hs ps (first + count) ys _ (tot + (mgaps first (first + count) its (2 ^ 32 - 1)).1) p3 h3 m1 (by omega) (by omega)
    rw [List.filter_append, List.length_append]
    omega

/-- C38. When no track has bitrates, room is made for at least as many gap tags as are written, for periods in order of which a
part is written, whatever the elements of the tracks (in order) and the estimators are. -/
theorem gap_room {ess : List (List Elt)} (hne : ess ≠ []) (hs : ∀ es ∈ ess, Sorted es) (hn : mhas (ess.map pinit) = false)
    (ests : Nat → List (Nat → Nat)) (hl : ∀ x, (ests x).length = ess.length) {ps : List (Nat × Nat)} (hp : Periods 0 ps)
    {xs : List Nat} (hw : Written ps xs) :
    (gapTags ests xs (ess.map pinit) 0).1 ≤ gapRoom ps (ess.map pinit) 0 := by
  obtain ⟨w1, w2⟩ := written_ge ps 0 xs hp hw
  rw [gapTags_spec (mhas_false hn) hs ests hl xs _ 0 0 (Its.init ess) w1 w2]
  exact room_ge hne hs ps 0 xs _ 0 hp hw (Its.init ess) (Nat.le_refl _) (by decide)

/-- C38, for what the tracks of a channel served. -/
theorem gap_room_served {c : Conf} (hc : ConfOk c) (ts : List (Track × List Rec × Nat)) (hne : ts ≠ []) (h : ∀ t ∈ ts, Reach c t.1 t.2.1 t.2.2)
    (hn : mhas (ts.map fun t => pinit (writeServe t.1)) = false) (ests : Nat → List (Nat → Nat))
    (hl : ∀ x, (ests x).length = ts.length) {ps : List (Nat × Nat)} (hp : Periods 0 ps) {xs : List Nat} (hw : Written ps xs) :
    (gapTags ests xs (ts.map fun t => pinit (writeServe t.1)) 0).1 ≤ gapRoom ps (ts.map fun t => pinit (writeServe t.1)) 0 := by
  have e : (ts.map fun t => pinit (writeServe t.1)) = (ts.map fun t => writeServe t.1).map pinit := by rw [List.map_map]; rfl
  rw [e] at hn ⊢
  refine gap_room (by simpa using hne) ?_ hn ests (by simpa using hl) hp hw
  intro es he
  obtain ⟨t, ht, rfl⟩ := List.mem_map.1 he
  exact served_sorted (reach_inv hc (h t ht)).wf

end Verif.SegmentInfo
