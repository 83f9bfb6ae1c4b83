import Verif.SegmentInfoSave

/-!
# C29 and C30: what a track reports about its segments

The history of a track is the list of the segments that were reported to it, each with the bitrate it was reported with (zero when
the segment has no media).
-/

namespace Verif.SegmentInfo

open Verif.SegmentList (Tree Scope)

/-! ## Spec -/

/-- A segment of the track. -/
structure Rec where
  idx : Nat
  b : Nat
deriving Repr, DecidableEq

/-- The bitrate to report for a segment: 0 for a gap, the placeholder 1 when bitrates are not kept. -/
def want (c : Conf) (b : Nat) : Nat := if b = 0 then 0 else if c.bitrate then b else 1

/-- The bitrate before the first segment. -/
def before (c : Conf) : Nat := if c.gaps then 0 else 1

/-- The last segment up to an index. Gaps are segments only when they are tracked. -/
def lastRec (c : Conf) (H : List Rec) (i : Nat) : Option Rec := (H.filter fun r => decide (r.idx ≤ i) && (r.b != 0 || c.gaps)).getLast?

/-- A value may stand for a bitrate: it is the same, or it is within the configured percents of it. -/
def Close (c : Conf) (v b : Nat) : Prop := v = want c b ∨ (want c b * c.lower ≤ v * 100 ∧ v * 100 ≤ want c b * c.upper)

/-- A value may be reported for a segment. -/
def Reported (c : Conf) (H : List Rec) (i v : Nat) : Prop :=
  match lastRec c H i with
  | none => v = before c
  | some r => Close c v r.b

/-- The bounds of the configuration. -/
structure ConfOk (c : Conf) : Prop where
  lower : 0 < c.lower ∧ c.lower < 2 ^ 32
  upper : c.upper < 2 ^ 32

/-- The value that the change log of a track gives. -/
def val (s : Track) (i : Nat) : Nat := valAt s.initial (elts s.nodes) i

/-- Saving a range. -/
def save (s : Track) (t : Tree) (sc : Scope) : Res (Option (List UInt8)) := (writeIndex s t sc).map (·.map encode)

/-- Restoring what was saved. -/
def load (r : Track) (sc : Scope) (alloc : Nat) : Option (List UInt8) → Res Track
  | none => .ok r
  | some bytes => readIndex r sc alloc bytes (some 0)

/-- A track and what is restored from the blocks that it wrote: `r` after reading blocks that end before `p`. The first block
starts anywhere, each further one where the one before it ended, and the track goes on in between. -/
inductive Chain (c : Conf) (s0 : Track) (H0 : List Rec) (m0 : Nat) : Track → List Rec → Nat → Track → Nat → Prop
  | first {t : Tree} {sc : Scope} {bytes : Option (List UInt8)} {alloc : Nat} {r : Track} (ht : TreeOf s0.nodes t) (h1 : sc.min ≤ sc.max)
      (h2 : m0 ≤ sc.max) (hs : save s0 t sc = .ok bytes) (ha : (bytes.getD []).length ≤ alloc)
      (hl : load (init c) sc alloc bytes = .ok r) : Chain c s0 H0 m0 s0 H0 (max m0 sc.min) r (sc.max + 1)
  | created {s : Track} {H : List Rec} {m : Nat} {r : Track} {p : Nat} {alloc : Bool} {idx b : Nat} {s' : Track}
      (h : Chain c s0 H0 m0 s H m r p) (h1 : ∀ x ∈ H, x.idx < idx) (h2 : idx < invalid) (h3 : b < 2 ^ 32) (h4 : p ≤ idx)
      (hc : created c s alloc idx b = .ok s') : Chain c s0 H0 m0 s' (H ++ [⟨idx, b⟩]) m r p
  | free {s : Track} {H : List Rec} {m : Nat} {r : Track} {p : Nat} {x : Nat}
      (h : Chain c s0 H0 m0 s H m r p) (h1 : x < p) : Chain c s0 H0 m0 (free s x) H (max m x) r p
  | more {s : Track} {H : List Rec} {m : Nat} {r : Track} {p : Nat} {t : Tree} {max : Nat} {bytes : Option (List UInt8)}
      {alloc : Nat} {r' : Track} (h : Chain c s0 H0 m0 s H m r p) (ht : TreeOf s.nodes t) (h1 : p ≤ max)
      (hs : save s t ⟨p, max⟩ = .ok bytes) (ha : (bytes.getD []).length ≤ alloc)
      (hl : load r ⟨p, max⟩ alloc bytes = .ok r') : Chain c s0 H0 m0 s H m r' (max + 1)

/-- The states of a track with its history; from `m` on nothing was freed. -/
inductive Reach (c : Conf) : Track → List Rec → Nat → Prop
  | init : Reach c (init c) [] 0
  | created {s : Track} {H : List Rec} {m : Nat} {alloc : Bool} {idx b : Nat} {s' : Track} (h : Reach c s H m)
      (h1 : ∀ x ∈ H, x.idx < idx) (h2 : idx < invalid) (h3 : b < 2 ^ 32) (hc : created c s alloc idx b = .ok s') :
      Reach c s' (H ++ [⟨idx, b⟩]) m
  | again {s : Track} {H : List Rec} {m : Nat} {alloc : Bool} {idx b : Nat} {s' : Track} (h : Reach c s H m)
      (h1 : s.lastIdx ≠ invalid) (h2 : idx ≤ s.lastIdx) (hc : created c s alloc idx b = .ok s') : Reach c s' H m
  | free {s : Track} {H : List Rec} {m : Nat} (h : Reach c s H m) (x : Nat) : Reach c (free s x) H (max m x)
  | copy {s : Track} {H : List Rec} {m : Nat} (h : Reach c s H m) : Reach c (copy c s) H m
  | restart {s0 : Track} {H0 : List Rec} {m0 : Nat} {s : Track} {H : List Rec} {m : Nat} {r : Track} {p : Nat}
      (h : Reach c s0 H0 m0) (hc : Chain c s0 H0 m0 s H m r p) (hb : ∀ x ∈ H, want c x.b * 100 < 2 ^ 32) :
      Reach c r (H.filter fun x => decide (x.idx < p)) m

/-! ## Invariant -/

/-- The last value of a change log. -/
def lastVal (s : Track) : Nat := (((elts s.nodes).getLast?).map (·.bitrate)).getD s.initial

structure Inv (c : Conf) (s : Track) (H : List Rec) (m : Nat) : Prop where
  wf : WF s.nodes
  ini : s.initial = before c
  last : s.lastBitrate = lastVal s * 100
  elt : ∀ e ∈ elts s.nodes, ∃ r ∈ H, r.idx = e.idx ∧ e.bitrate = want c r.b
  lastIdx : s.lastIdx = invalid ∨ ∃ r ∈ H, r.idx = s.lastIdx
  hist : H.Pairwise fun a b => a.idx < b.idx
  rng : ∀ r ∈ H, r.idx < invalid ∧ r.b < 2 ^ 32
  off : c.bitrate = false → c.gaps = false → s.nodes = []
  rep : ∀ i, m ≤ i → Reported c H i (val s i)

theorem effective_eq (c : Conf) (b : Nat) : effective c b = want c b := by
  unfold effective want noBitrate
  by_cases hb : b = 0
  · simp [hb]
  · cases hc : c.bitrate <;> simp [hb]

theorem init_inv (c : Conf) : Inv c (init c) [] 0 := by
  have hn : (init c).nodes = [] := by unfold init; split <;> rfl
  have hi : (init c).initial = before c := by
    unfold init before noBitrate; split <;> rfl
  refine ⟨by rw [hn]; exact ⟨by simp, by simp [elts, Sorted], by simp [elts], by simp [elts]⟩, hi, ?_, by rw [hn]; simp [elts], ?_, by simp, by simp, fun _ _ => hn, ?_⟩
  · unfold lastVal; rw [hn]
    unfold init; split <;> rfl
  · left; unfold init; split <;> rfl
  · intro i _
    unfold val; rw [hn, hi]; exact rfl

theorem init_nodes (c : Conf) : (init c).nodes = [] := by unfold init; split <;> rfl

theorem lastRec_snoc (c : Conf) (H : List Rec) (x : Rec) (i : Nat) :
    lastRec c (H ++ [x]) i = if x.idx ≤ i ∧ (x.b ≠ 0 ∨ c.gaps = true) then some x else lastRec c H i := by
  unfold lastRec
  rw [List.filter_append]
  by_cases hc : x.idx ≤ i ∧ (x.b ≠ 0 ∨ c.gaps = true)
  · rw [if_pos hc, List.filter_cons_of_pos (by simpa using hc)]
    simp
  · rw [if_neg hc, List.filter_cons_of_neg (by
      simp only [Bool.and_eq_true, decide_eq_true_eq, Bool.or_eq_true, bne_iff_ne, ne_eq]; exact hc)]
    simp

theorem val_last {s : Track} {i : Nat} (h : ∀ e ∈ elts s.nodes, e.idx ≤ i) : val s i = lastVal s := valAt_le _ _ _ h

/-- What a created segment does to the flat log. -/
theorem created_spec {c : Conf} (hc : ConfOk c) {s : Track} (hw : WF s.nodes) {v : Nat} (hv : s.lastBitrate = v * 100)
    {alloc : Bool} {idx b : Nat} {s' : Track} (hn : s.lastIdx = invalid ∨ s.lastIdx < idx)
    (h1 : ∀ e ∈ elts s.nodes, e.idx < idx) (h2 : idx < invalid) (h3 : b < 2 ^ 32) (h : created c s alloc idx b = .ok s') :
    (c.bitrate = false ∧ c.gaps = false ∧ s' = s) ∨
    (s' = { s with lastIdx := idx } ∧ ((b = 0 ∧ c.gaps = false) ∨ (want c b * c.lower ≤ v * 100 ∧ v * 100 ≤ want c b * c.upper))) ∨
    (∃ ns, s' = { s with nodes := ns, lastIdx := idx, lastBitrate := want c b * 100 } ∧ WF ns ∧
      ¬ (b = 0 ∧ c.gaps = false) ∧ ¬ (want c b * c.lower ≤ v * 100 ∧ v * 100 ≤ want c b * c.upper) ∧
      ¬ (c.bitrate = false ∧ c.gaps = false) ∧ elts ns = elts s.nodes ++ [⟨idx, want c b⟩]) := by
  unfold created at h
  by_cases ho : c.bitrate = false ∧ c.gaps = false
  · rw [if_pos ho] at h; injection h with h; exact .inl ⟨ho.1, ho.2, h.symm⟩
  · rw [if_neg ho, if_neg (by omega)] at h
    dsimp only at h
    right
    by_cases hz : b = 0 ∧ c.gaps = false
    · rw [if_pos hz] at h; injection h with h; exact .inl ⟨h.symm, .inl hz⟩
    · rw [if_neg hz, effective_eq] at h
      have hb : want c b < 2 ^ 32 := by unfold want; split; omega; split <;> omega
      have hpow : 2 ^ 32 * 2 ^ 32 = 2 ^ 64 := by decide
      have m1 : want c b * c.lower < 2 ^ 64 := by rw [← hpow]; exact Nat.mul_lt_mul'' hb hc.lower.2
      have m2 : want c b * c.upper < 2 ^ 64 := by rw [← hpow]; exact Nat.mul_lt_mul'' hb hc.upper
      have hnear : near c s.lastBitrate (want c b) ↔ want c b * c.lower ≤ v * 100 ∧ v * 100 ≤ want c b * c.upper := by
        unfold near; rw [Nat.mod_eq_of_lt m1, Nat.mod_eq_of_lt m2, hv]
      by_cases hnr : near c s.lastBitrate (want c b)
      · rw [if_pos hnr] at h; injection h with h; exact .inl ⟨h.symm, .inr (hnear.1 hnr)⟩
      · rw [if_neg hnr] at h
        right
        cases hp : push { s with lastIdx := idx } alloc ⟨idx, want c b⟩ with
        | ok s1 =>
          rw [hp, Res.bind_ok] at h
          injection h with h
          obtain ⟨ns, e1, e2, e3⟩ := push_spec (s := { s with lastIdx := idx }) hw h1 h2 hb hp
          rw [e1] at h
          exact ⟨ns, h.symm, e2, hz, fun hh => hnr (hnear.2 hh), ho, e3⟩
        | err => rw [hp] at h; cases h
        | ub => rw [hp] at h; cases h

theorem created_inv {c : Conf} (hc : ConfOk c) {s : Track} {H : List Rec} {m : Nat} (h : Inv c s H m) {alloc : Bool} {idx b : Nat}
    {s' : Track} (h1 : ∀ x ∈ H, x.idx < idx) (h2 : idx < invalid) (h3 : b < 2 ^ 32) (hp : created c s alloc idx b = .ok s') :
    Inv c s' (H ++ [⟨idx, b⟩]) m := by
  have he : ∀ e ∈ elts s.nodes, e.idx < idx := fun e he => by
    obtain ⟨r, hr, e1, _⟩ := h.elt e he; rw [← e1]; exact h1 r hr
  have hl : s.lastIdx = invalid ∨ s.lastIdx < idx := by
    rcases h.lastIdx with h4 | ⟨r, hr, e1⟩
    · exact .inl h4
    · right; rw [← e1]; exact h1 r hr
  have hist : (H ++ [(⟨idx, b⟩ : Rec)]).Pairwise fun a b => a.idx < b.idx :=
    List.pairwise_append.2 ⟨h.hist, by simp, fun x hx y hy => by simp at hy; rw [hy]; exact h1 x hx⟩
  have rng : ∀ r ∈ H ++ [(⟨idx, b⟩ : Rec)], r.idx < invalid ∧ r.b < 2 ^ 32 := fun r hr => by
    rcases List.mem_append.1 hr with hr | hr
    · exact h.rng r hr
    · simp at hr; rw [hr]; exact ⟨h2, h3⟩
  have elt : ∀ e ∈ elts s.nodes, ∃ r ∈ H ++ [(⟨idx, b⟩ : Rec)], r.idx = e.idx ∧ e.bitrate = want c r.b := fun e he => by
    obtain ⟨r, hr, e1⟩ := h.elt e he; exact ⟨r, by simp [hr], e1⟩
  -- the report when the log is the same
  have rep : (b = 0 ∧ c.gaps = false ∨ Close c (lastVal s) b) → ∀ i, m ≤ i → Reported c (H ++ [⟨idx, b⟩]) i (val s i) := by
    intro hcl i hi
    have hr := h.rep i hi
    unfold Reported at hr ⊢
    rw [lastRec_snoc]
    by_cases hx : idx ≤ i ∧ (b ≠ 0 ∨ c.gaps = true)
    · rw [if_pos hx]
      dsimp only
      rw [val_last (fun e h5 => by have := he e h5; omega)]
      rcases hcl with ⟨hb, hg⟩ | hcl
      · rcases hx.2 with h6 | h6
        · exact absurd hb h6
        · rw [hg] at h6; cases h6
      · exact hcl
    · rw [if_neg hx]; exact hr
  rcases created_spec hc h.wf h.last hl he h2 h3 hp with ⟨o1, o2, e1⟩ | ⟨e1, hcl⟩ | ⟨ns, e1, hw, hz, hnr, ho, hf⟩
  · subst e1
    refine ⟨h.wf, h.ini, h.last, elt, ?_, hist, rng, h.off, rep ?_⟩
    · rcases h.lastIdx with h4 | ⟨r, hr, e1⟩
      · exact .inl h4
      · exact .inr ⟨r, by simp [hr], e1⟩
    · by_cases hb : b = 0
      · exact .inl ⟨hb, o2⟩
      · right; left
        unfold lastVal want; rw [h.off o1 o2, h.ini, before, if_neg (by rw [o2]; simp), if_neg hb, if_neg (by rw [o1]; simp)]
        simp [elts]
  · subst e1
    refine ⟨h.wf, h.ini, h.last, elt, .inr ⟨⟨idx, b⟩, by simp, rfl⟩, hist, rng, h.off, rep ?_⟩
    rcases hcl with h4 | h4
    · exact .inl h4
    · exact .inr (.inr h4)
  · subst e1
    refine ⟨hw, h.ini, ?_, ?_, .inr ⟨⟨idx, b⟩, by simp, rfl⟩, hist, rng, fun o1 o2 => absurd ⟨o1, o2⟩ ho, ?_⟩
    · show want c b * 100 = _
      unfold lastVal; dsimp only; rw [hf]; simp
    · show ∀ e ∈ elts ns, _
      rw [hf]
      intro e he
      rcases List.mem_append.1 he with he | he
      · exact elt e he
      · simp at he; exact ⟨⟨idx, b⟩, by simp, by rw [he], by rw [he]⟩
    · intro i hi
      have hr := h.rep i hi
      unfold Reported at hr ⊢
      rw [lastRec_snoc]
      have hv : val { s with nodes := ns, lastIdx := idx, lastBitrate := want c b * 100 } i =
          if idx ≤ i then want c b else val s i := by
        unfold val; dsimp only
        rw [hf, valAt_append, valAt, valAt, valAt]
      rw [hv]
      by_cases hi2 : idx ≤ i
      · rw [if_pos ⟨hi2, by
          by_cases hb : b = 0
          · right; cases hg : c.gaps with
            | true => rfl
            | false => exact absurd ⟨hb, hg⟩ hz
          · exact .inl hb⟩, if_pos hi2]
        exact .inl rfl
      · rw [if_neg (by simp only; omega), if_neg hi2]; exact hr

theorem created_same {c : Conf} {s : Track} {alloc : Bool} {idx b : Nat} (h1 : s.lastIdx ≠ invalid) (h2 : idx ≤ s.lastIdx) :
    created c s alloc idx b = .ok s := by
  unfold created
  split
  · rfl
  · rw [if_pos ⟨h2, h1⟩]

theorem lastVal_free {ns : List Node} (h : WF ns) (x : Nat) : (elts (freeLoop x ns)).getLast? = (elts ns).getLast? := by
  obtain ⟨_, a, h2, h3⟩ := freeLoop_spec x ns h
  rw [h2]
  by_cases ha : a = []
  · rw [ha]; rfl
  · obtain ⟨f, r, e1, e2⟩ := h3 ha
    rw [e1]; simp [List.getLast?_append, List.getLast?_cons]

theorem free_inv {c : Conf} {s : Track} {H : List Rec} {m : Nat} (h : Inv c s H m) (x : Nat) : Inv c (free s x) H (max m x) := by
  obtain ⟨h1, a, h2, h3⟩ := freeLoop_spec x s.nodes h.wf
  refine ⟨h1, h.ini, ?_, ?_, h.lastIdx, h.hist, h.rng, ?_, ?_⟩
  · show s.lastBitrate = _
    rw [h.last]; unfold lastVal free; dsimp only; rw [lastVal_free h.wf]
  · intro e he
    exact h.elt e (by rw [h2]; exact List.mem_append.2 (.inr he))
  · intro o1 o2
    show freeLoop x s.nodes = []
    rw [h.off o1 o2]; rfl
  · intro i hi
    have : val (free s x) i = val s i := by
      unfold val free; dsimp only; exact free_valAt h.wf (by omega) _
    rw [this]; exact h.rep i (by omega)

theorem copy_inv {c : Conf} {s : Track} {H : List Rec} {m : Nat} (h : Inv c s H m) : Inv c (copy c s) H m := by
  have hi := init_inv c
  have e : (copy c s).initial = s.initial := by rw [h.ini, ← hi.ini]; rfl
  have hl : lastVal (copy c s) = lastVal s := by unfold lastVal; rw [e]; rfl
  refine ⟨h.wf, hi.ini, by rw [hl]; exact h.last, h.elt, .inl ?_, h.hist, h.rng, h.off, fun i h1 => ?_⟩
  · rcases hi.lastIdx with h1 | ⟨r, hr, _⟩
    · exact h1
    · cases hr
  · have : val (copy c s) i = val s i := by unfold val; rw [e]; rfl
    rw [this]; exact h.rep i h1

/-! ## Restoring -/

/-- What the copy of a track is like after blocks that end before `p`. -/
structure Mirror (c : Conf) (s : Track) (H : List Rec) (m : Nat) (r : Track) (p : Nat) : Prop where
  wf : WF r.nodes
  ini : r.initial = before c
  lastIdx : r.lastIdx = invalid
  low : m < p
  idx : ∀ e ∈ elts r.nodes, e.idx < p
  elt : ∀ e ∈ elts r.nodes, ∃ x ∈ H, x.idx = e.idx ∧ e.bitrate = want c x.b
  off : c.bitrate = false → c.gaps = false → r.nodes = []
  last : r.lastBitrate = lastVal r * 100 % 2 ^ 32
  same : ∀ i, m ≤ i → i < p → val r i = val s i

theorem load_empty (r : Track) (sc : Scope) (alloc : Nat) : load r sc alloc (some (encode [])) = .ok r := rfl

theorem load_some {r : Track} {sc : Scope} {alloc : Nat} {es : List Elt} (hne : es ≠ [])
    (h : ∀ e ∈ es, e.idx < 2 ^ 32 ∧ e.bitrate < 2 ^ 32) : load r sc alloc (some (encode es)) = readElts r sc alloc es := by
  show readIndex r sc alloc (encode es) (some 0) = _
  unfold readIndex
  dsimp only
  have hl := encode_length es
  have h1 : 0 < es.length := List.length_pos_iff.2 hne
  rw [if_neg (by omega), List.drop_zero, if_neg (by omega), decode_encode es h]

/-- One block: the part of the log it has is appended, and from its start on the copy is as the track up to the end of the block. -/
theorem load_spec {c : Conf} {s : Track} (hw : WF s.nodes) (hini : s.initial = before c) {t : Tree} (ht : TreeOf s.nodes t) {sc : Scope}
    (h1 : sc.min ≤ sc.max) {r : Track} (hr : WF r.nodes) (hri : r.initial = before c) (hrl : ∀ e ∈ elts r.nodes, e.idx < sc.min)
    (hlast : r.lastBitrate = lastVal r * 100 % 2 ^ 32) (hv : ∀ j, j + 1 = sc.min → r.nodes ≠ [] → val r j = val s j)
    {bytes : Option (List UInt8)} (hs : save s t sc = .ok bytes) {alloc : Nat} (ha : (bytes.getD []).length ≤ alloc) :
    ∃ r', load r sc alloc bytes = .ok r' ∧ WF r'.nodes ∧ r'.initial = r.initial ∧ r'.lastIdx = r.lastIdx ∧
      r'.lastBitrate = lastVal r' * 100 % 2 ^ 32 ∧
      (∀ e ∈ elts r'.nodes, e.idx ≤ sc.max ∧ (e ∈ elts r.nodes ∨ e ∈ elts s.nodes)) ∧
      (∀ i, sc.min ≤ i → val r' i = val s (min i sc.max)) ∧
      (r.nodes ≠ [] → ∀ i, i < sc.min → val r' i = val r i) ∧
      (r.nodes = [] → ∀ i, i < sc.min → val r' i = val s i ∨ val r' i = before c) := by
  rcases writeIndex_spec hw ht sc with ⟨hnil, hwi⟩ | ⟨a, f, rr, e1, e2, e3, e4, hwi⟩
  · -- the track has no block
    unfold save at hs
    rw [hwi] at hs
    injection hs with hs
    subst hs
    refine ⟨r, rfl, hr, rfl, rfl, hlast, fun e he => ⟨by have := hrl e he; omega, .inl he⟩, ?_, fun _ _ _ => rfl, ?_⟩
    · intro i hi
      have hvs : ∀ j, val s j = before c := fun j => by unfold val; rw [hnil, hini]; rfl
      rw [hvs]
      by_cases hn : r.nodes = []
      · unfold val; rw [hn, hri]; rfl
      · rw [val_last (fun e he => by have := hrl e he; omega)]
        have hne : elts r.nodes ≠ [] := by
          cases hh : r.nodes with
          | nil => exact absurd hh hn
          | cons n ns =>
            obtain ⟨z, zs, q, _⟩ := (hr.node n (by rw [hh]; simp)).head
            rw [elts_cons, q]; simp
        obtain ⟨z, hz⟩ := List.exists_mem_of_ne_nil _ hne
        have hp := hrl z hz
        have h5 := hv (sc.min - 1) (by omega) hn
        rw [val_last (fun e he => by have := hrl e he; omega), hvs] at h5
        exact h5
    · intro hn i _; right; unfold val; rw [hn, hri]; rfl
  · unfold save at hs
    rw [hwi] at hs
    injection hs with hs
    subst hs
    generalize hes : ((f :: rr).filter fun e => decide (e.idx ≤ sc.max)) = es at ha
    have hmem : ∀ e ∈ es, e ∈ elts s.nodes ∧ e.idx ≤ sc.max := fun e he => by
      rw [← hes] at he
      have := List.mem_filter.1 he
      exact ⟨by rw [e1]; exact List.mem_append.2 (.inr this.1), by simpa using this.2⟩
    have hsrt : Sorted (f :: rr) := by
      have := hw.sorted
      rw [e1] at this
      exact (List.pairwise_append.1 this).2.1
    have hes' : Sorted es := by rw [← hes]; exact hsrt.sublist List.filter_sublist
    have hf0 : f ∈ elts s.nodes := by rw [e1]; simp
    -- the log of the track from the start of the range on
    have hvs : ∀ j, sc.min ≤ j → val s j = valAt (before c) (f :: rr) j := fun j hj => by
      unfold val; rw [hini, e1]; exact find_valAt e3 hj _
    have hve : ∀ i b, valAt b es i = valAt b (f :: rr) (min i sc.max) := fun i b => by rw [← hes]; exact valAt_filter _ _ _ _
    have hrest : ∀ i, sc.min ≤ i → val r i = lastVal r := fun i hi => val_last (fun e he => by have := hrl e he; omega)
    -- the value before the range
    have hprev : r.nodes ≠ [] → lastVal r = if f.idx < sc.min then f.bitrate else (if a = [] then before c else lastVal r) := by
      intro hn
      have hne : elts r.nodes ≠ [] := by
        cases hh : r.nodes with
        | nil => exact absurd hh hn
        | cons n ns =>
          obtain ⟨z, zs, q, _⟩ := (hr.node n (by rw [hh]; simp)).head
          rw [elts_cons, q]; simp
      obtain ⟨z, hz⟩ := List.exists_mem_of_ne_nil _ hne
      have hp := hrl z hz
      have h5 := hv (sc.min - 1) (by omega) hn
      rw [val_last (fun e he => by have := hrl e he; omega)] at h5
      unfold val at h5
      rw [e1, valAt_append, valAt] at h5
      by_cases hc : f.idx < sc.min
      · rw [if_pos hc, h5, if_pos (by omega), valAt_gt _ _ _ (fun e he => by have := e4 e he; omega)]
      · rw [if_neg hc]
        rw [if_neg (by omega), valAt_gt rr _ _ (fun e he => by have := e4 e he; omega)] at h5
        by_cases hb : a = []
        · rw [if_pos hb, h5, hb, hini]; rfl
        · rw [if_neg hb]
    by_cases hempty : es = []
    · -- the block is empty
      refine ⟨r, by rw [hempty]; rfl, hr, rfl, rfl, hlast, fun e he => ⟨by have := hrl e he; omega, .inl he⟩, ?_, fun _ _ _ => rfl, ?_⟩
      · intro i hi
        have hfm : sc.max < f.idx := by
          rcases Nat.lt_or_ge sc.max f.idx with hh | hh
          · exact hh
          · have : f ∈ es := by rw [← hes]; exact List.mem_filter.2 ⟨by simp, by simpa using hh⟩
            rw [hempty] at this; cases this
        have ha0 : a = [] := by
          rcases Classical.em (a = []) with hh | hh
          · exact hh
          · have := e3 hh; omega
        rw [hvs _ (by omega), ← hve i (before c), hempty]
        show _ = before c
        rw [hrest i hi]
        by_cases hn : r.nodes = []
        · unfold lastVal; rw [hn, hri]; rfl
        · rw [hprev hn, if_neg (by omega), if_pos ha0]
      · intro hn i _; right; unfold val; rw [hn, hri]; rfl
    · have hlen : es.length ≤ alloc := by
        have := encode_length es
        have h5 : (encode es).length ≤ alloc := ha
        omega
      have hel : ∀ e ∈ es, e.idx ≤ sc.max ∧ e.idx < invalid ∧ e.bitrate < 2 ^ 32 := fun e he =>
        ⟨(hmem e he).2, hw.idx e (hmem e he).1, hw.bitrate e (hmem e he).1⟩
      have htail : ∀ e ∈ es.tail, sc.min ≤ e.idx := by
        intro e he
        rw [← hes, List.filter_cons] at he
        split at he
        · have := e4 e ((List.mem_filter.1 he).1); omega
        · have := e4 e ((List.mem_filter.1 (List.mem_of_mem_tail he)).1); omega
      obtain ⟨ns, l, r1, r2, r3, r4⟩ := readElts_spec hr hempty hlen hrl hes' hel htail
      have hld : load r sc alloc (some (encode es)) = .ok { r with nodes := ns, lastBitrate := l.bitrate * 100 % 2 ^ 32 } := by
        rw [load_some hempty (fun e he => ⟨by have := (hel e he).2.1; unfold invalid at this; omega, (hel e he).2.2⟩)]
        exact r1
      refine ⟨_, hld, r2, rfl, rfl, ?_, ?_, ?_, ?_, ?_⟩
      · unfold lastVal; dsimp only; rw [r4]; rfl
      · show ∀ e ∈ elts ns, _
        rw [r3]
        intro e he
        rcases List.mem_append.1 he with he | he
        · exact ⟨by have := hrl e he; omega, .inl he⟩
        · have : e ∈ es := by
            cases es with
            | nil => exact he
            | cons z zs =>
              rw [added] at he
              split at he
              · simp [he]
              · exact he
          exact ⟨(hmem e this).2, .inr (hmem e this).1⟩
      · intro i hi
        have hh : val { r with nodes := ns, lastBitrate := l.bitrate * 100 % 2 ^ 32 } i =
            valAt (lastVal r) (added r.nodes sc.min es) i := by
          unfold val; dsimp only; rw [r3, valAt_append]
          show valAt (val r i) _ _ = _
          rw [hrest i hi]
        rw [hh, hvs _ (by omega), ← hve i (before c)]
        -- the head of the block
        obtain ⟨z, zs, hz⟩ : ∃ z zs, es = z :: zs := by
          cases es with
          | nil => exact absurd rfl hempty
          | cons z zs => exact ⟨z, zs, rfl⟩
        have hzf : z = f := by
          rw [← hes, List.filter_cons] at hz
          split at hz
          · injection hz with hz; exact hz.symm
          · rename_i hh2
            have hfm : sc.max < f.idx := by simpa using hh2
            have : z ∈ rr := (List.mem_filter.1 (by rw [hz]; simp : z ∈ rr.filter _)).1
            have h6 := (List.pairwise_cons.1 hsrt).1 z this
            have h7 := (hmem z (by rw [← hes, List.filter_cons, if_neg hh2, hz]; simp)).2
            omega
        subst hzf
        rw [hz, added]
        by_cases hn : r.nodes = []
        · rw [if_neg (by simp [hn])]
          have : lastVal r = before c := by unfold lastVal; rw [hn, hri]; rfl
          rw [this]
        · by_cases hc : z.idx < sc.min
          · rw [if_pos ⟨hn, hc⟩]
            conv => rhs; rw [valAt, if_pos (by omega)]
            rw [hprev hn, if_pos hc]
          · rw [if_neg (by simp [hc])]
            by_cases ha0 : a = []
            · rw [hprev hn, if_neg hc, if_pos ha0]
            · have := e3 ha0
              rw [valAt, valAt, if_pos (by omega), if_pos (by omega)]
      · intro hn i hi
        unfold val; dsimp only
        rw [r3, valAt_append, valAt_gt (added r.nodes sc.min es)]
        intro e he
        cases es with
        | nil => cases he
        | cons z zs =>
          rw [added] at he
          split at he
          · have := htail e he; omega
          · rename_i hc
            rcases List.mem_cons.1 he with rfl | he
            · have : ¬ e.idx < sc.min := fun hlt => hc ⟨hn, hlt⟩
              omega
            · have := htail e he; omega
      · intro hn i hi
        have hh : val { r with nodes := ns, lastBitrate := l.bitrate * 100 % 2 ^ 32 } i = valAt (before c) (f :: rr) i := by
          unfold val; dsimp only
          rw [r3, hn, hri]
          have : added [] sc.min es = es := by
            cases es with
            | nil => rfl
            | cons z zs => rw [added, if_neg (by simp)]
          rw [this, show elts [] ++ es = es from rfl, hve i, Nat.min_eq_left (by omega)]
        rw [hh]
        by_cases hc : f.idx ≤ i
        · left
          unfold val
          rw [e1, valAt_append, valAt, valAt, if_pos hc, if_pos hc]
        · right
          rw [valAt, if_neg hc, valAt_gt]
          intro e he; have := e4 e he; omega


theorem reported_congr {c : Conf} {H K : List Rec} {i j v : Nat} (h : lastRec c H i = lastRec c K j) (hr : Reported c K j v) :
    Reported c H i v := by
  unfold Reported at hr ⊢; rw [h]; exact hr

theorem lastRec_cut (c : Conf) (H : List Rec) (i p : Nat) :
    lastRec c (H.filter fun x => decide (x.idx < p + 1)) i = lastRec c H (min i p) := by
  unfold lastRec
  rw [List.filter_filter]
  congr 1
  apply List.filter_congr
  intro x _
  by_cases h1 : x.idx ≤ i <;> by_cases h2 : x.idx < p + 1 <;> simp [h1, h2] <;> omega

theorem init_wf (c : Conf) : WF (init c).nodes ∧ (init c).initial = before c ∧ (init c).lastIdx = invalid ∧
    (init c).lastBitrate = lastVal (init c) * 100 % 2 ^ 32 := by
  have h := init_inv c
  refine ⟨h.wf, h.ini, ?_, ?_⟩
  · unfold init; split <;> rfl
  · unfold lastVal init; split <;> rfl

theorem chain_inv {c : Conf} (hc : ConfOk c) {s0 : Track} {H0 : List Rec} {m0 : Nat} (h0 : Inv c s0 H0 m0) {s : Track} {H : List Rec}
    {m : Nat} {r : Track} {p : Nat} (h : Chain c s0 H0 m0 s H m r p) : Inv c s H m ∧ Mirror c s H m r p := by
  induction h with
  | @first t sc bytes alloc r ht h1 h2 hs ha hl =>
    obtain ⟨i1, i2, i3, i4⟩ := init_wf c
    have hn := init_nodes c
    obtain ⟨r', e1, e2, e3, e4, e5, e6, e7, e8, e9⟩ := load_spec h0.wf h0.ini ht h1 i1 i2 (by rw [hn]; simp [elts]) i4
      (fun _ _ hh => absurd hn hh) hs ha
    rw [hl] at e1
    injection e1 with e1
    subst e1
    have hme : ∀ e ∈ elts r.nodes, e ∈ elts s0.nodes := fun e he => by
      rcases (e6 e he).2 with h5 | h5
      · rw [hn] at h5; simp [elts] at h5
      · exact h5
    refine ⟨⟨h0.wf, h0.ini, h0.last, h0.elt, h0.lastIdx, h0.hist, h0.rng, h0.off, fun i hi => h0.rep i (by omega)⟩,
      ⟨e2, by rw [e3, i2], by rw [e4, i3], by omega, fun e he => by have := (e6 e he).1; omega, fun e he => h0.elt e (hme e he), ?_, e5, ?_⟩⟩
    · intro o1 o2
      have hz := h0.off o1 o2
      cases hh : r.nodes with
      | nil => rfl
      | cons n ns =>
        obtain ⟨z, zs, q, _⟩ := (e2.node n (by rw [hh]; simp)).head
        have := hme z (by rw [hh, elts_cons, q]; simp)
        rw [hz] at this; simp [elts] at this
    · intro i h3 h4
      rw [e7 i (by omega), Nat.min_eq_left (by omega)]
  | @created s H m r p alloc idx b s' _ h1 h2 h3 h4 hcr ih =>
    obtain ⟨ih, mi⟩ := ih
    have hin := created_inv hc ih h1 h2 h3 hcr
    refine ⟨hin, mi.wf, mi.ini, mi.lastIdx, mi.low, mi.idx, fun e he => ?_, mi.off, mi.last, fun i h5 h6 => ?_⟩
    · obtain ⟨x, hx, e1⟩ := mi.elt e he; exact ⟨x, by simp [hx], e1⟩
    · rw [mi.same i h5 h6]
      have he : ∀ e ∈ elts s.nodes, e.idx < idx := fun e he => by
        obtain ⟨r, hr, e1, _⟩ := ih.elt e he; rw [← e1]; exact h1 r hr
      have hl : s.lastIdx = invalid ∨ s.lastIdx < idx := by
        rcases ih.lastIdx with h4 | ⟨r, hr, e1⟩
        · exact .inl h4
        · right; rw [← e1]; exact h1 r hr
      rcases created_spec hc ih.wf ih.last hl he h2 h3 hcr with ⟨_, _, e1⟩ | ⟨e1, _⟩ | ⟨ns, e1, _, _, _, _, hf⟩
      · rw [e1]
      · rw [e1]; rfl
      · rw [e1]; unfold val; dsimp only
        rw [hf, valAt_append, valAt, if_neg (by dsimp only; omega), valAt]
  | @free s H m r p x _ h1 ih =>
    obtain ⟨ih, mi⟩ := ih
    refine ⟨free_inv ih x, mi.wf, mi.ini, mi.lastIdx, by have := mi.low; omega, mi.idx, mi.elt, mi.off, mi.last, fun i h5 h6 => ?_⟩
    rw [mi.same i (by omega) h6]
    unfold val Verif.SegmentInfo.free; dsimp only; exact (free_valAt ih.wf (by omega) _).symm
  | @more s H m r p t max bytes alloc r' _ ht h1 hs ha hl ih =>
    obtain ⟨ih, mi⟩ := ih
    have hlow := mi.low
    obtain ⟨r2, e1, e2, e3, e4, e5, e6, e7, e8, e9⟩ := load_spec (sc := ⟨p, max⟩) ih.wf ih.ini ht h1 mi.wf mi.ini mi.idx mi.last
      (fun j hj _ => mi.same j (by dsimp only at hj; omega) (by dsimp only at hj; omega)) hs ha
    rw [hl] at e1
    injection e1 with e1
    subst e1
    dsimp only at e6 e7 e8 e9
    refine ⟨ih, e2, by rw [e3, mi.ini], by rw [e4, mi.lastIdx], by omega, fun e he => by have := (e6 e he).1; omega, fun e he => ?_, ?_, e5, ?_⟩
    · rcases (e6 e he).2 with h5 | h5
      · exact mi.elt e h5
      · exact ih.elt e h5
    · intro o1 o2
      cases hh : r'.nodes with
      | nil => rfl
      | cons n ns =>
        obtain ⟨z, zs, q, _⟩ := (e2.node n (by rw [hh]; simp)).head
        rcases (e6 z (by rw [hh, elts_cons, q]; simp)).2 with h5 | h5
        · rw [mi.off o1 o2] at h5; simp [elts] at h5
        · rw [ih.off o1 o2] at h5; simp [elts] at h5
    · intro i h3 h4
      rcases Nat.lt_or_ge i p with h5 | h5
      · by_cases hn : r.nodes = []
        · rcases e9 hn i h5 with h6 | h6
          · exact h6
          · rw [h6, ← mi.same i h3 h5]; unfold val; rw [hn, mi.ini]; rfl
        · rw [e8 hn i h5]; exact mi.same i h3 h5
      · rw [e7 i h5, Nat.min_eq_left (by omega)]

/-- A restored track is one with the history up to the last block. -/
theorem mirror_inv {c : Conf} {s : Track} {H : List Rec} {m : Nat} {r : Track} {p : Nat} (hi : Inv c s H m) (h : Mirror c s H m r p)
    (hb : ∀ x ∈ H, want c x.b * 100 < 2 ^ 32) : Inv c r (H.filter fun x => decide (x.idx < p)) m := by
  have hini : before c * 100 < 2 ^ 32 := by unfold before; split <;> decide
  refine ⟨h.wf, h.ini, ?_, ?_, .inl h.lastIdx, hi.hist.sublist List.filter_sublist, fun x hx => hi.rng x (List.mem_filter.1 hx).1, h.off, ?_⟩
  · rw [h.last, Nat.mod_eq_of_lt]
    unfold lastVal
    cases hl : (elts r.nodes).getLast? with
    | none => simp only [Option.map_none, Option.getD_none]; rw [h.ini]; exact hini
    | some e =>
      obtain ⟨x, hx, _, e2⟩ := h.elt e (List.mem_of_getLast? hl)
      simp only [Option.map_some, Option.getD_some]
      rw [e2]; exact hb x hx
  · intro e he
    obtain ⟨x, hx, e1, e2⟩ := h.elt e he
    exact ⟨x, List.mem_filter.2 ⟨hx, by simp [e1, h.idx e he]⟩, e1, e2⟩
  · intro i hm
    have hlow := h.low
    obtain ⟨q, rfl⟩ : ∃ q, p = q + 1 := ⟨p - 1, by omega⟩
    refine reported_congr (lastRec_cut c H i q) ?_
    have : val r i = val s (min i q) := by
      rcases Nat.lt_or_ge i (q + 1) with h1 | h1
      · rw [h.same i hm h1, Nat.min_eq_left (by omega)]
      · rw [Nat.min_eq_right (by omega), ← h.same q (by omega) (by omega)]
        rw [val_last (fun e he => by have := h.idx e he; omega), val_last (fun e he => by have := h.idx e he; omega)]
    rw [this]
    exact hi.rep _ (by omega)

theorem reach_inv {c : Conf} (hc : ConfOk c) {s : Track} {H : List Rec} {m : Nat} (h : Reach c s H m) : Inv c s H m := by
  induction h with
  | init => exact init_inv c
  | created _ h1 h2 h3 hcr ih => exact created_inv hc ih h1 h2 h3 hcr
  | again _ h1 h2 hcr ih => rw [created_same h1 h2] at hcr; injection hcr with hcr; rw [← hcr]; exact ih
  | free _ x ih => exact free_inv ih x
  | copy _ ih => exact copy_inv ih
  | restart _ hch hb ih =>
    obtain ⟨h1, h2⟩ := chain_inv hc ih hch
    exact mirror_inv h1 h2 hb

/-! ## C29 -/

theorem close_zero {c : Conf} (hc : ConfOk c) {v b : Nat} (h : Close c v b) : v = 0 ↔ b = 0 := by
  have hl := hc.lower.1
  unfold Close want at h
  by_cases hb : b = 0
  · rw [if_pos hb] at h
    refine ⟨fun _ => hb, fun _ => ?_⟩
    rcases h with h | h
    · exact h
    · omega
  · rw [if_neg hb] at h
    have hw : 0 < (if c.bitrate = true then b else 1) := by split <;> omega
    refine ⟨fun hv => ?_, fun h => absurd h hb⟩
    exfalso
    rcases h with h | h
    · omega
    · have := Nat.mul_pos hw hl; omega

/-- C29. With gap tracking the query over a range that is not empty, of segments that were not freed, is answered with yes
exactly when for some index of the range the last segment up to it has media. -/
theorem query_exact {c : Conf} (hc : ConfOk c) (hg : c.gaps = true) {s : Track} {H : List Rec} {m : Nat} (h : Reach c s H m)
    {t : Tree} (ht : TreeOf s.nodes t) {start fin : Nat} (hm : m ≤ start) (hr : start < fin) :
    ∃ ans, segExists s t start fin = .ok ans ∧
      (ans = true ↔ ∃ i, start ≤ i ∧ i < fin ∧ ∃ r, lastRec c H i = some r ∧ r.b ≠ 0) := by
  have hi := reach_inv hc h
  have hb : before c = 0 := by unfold before; rw [if_pos hg]
  obtain ⟨ans, e1, e2⟩ := exists_spec hi.wf ht (by rw [hi.ini, hb]) hr
  refine ⟨ans, e1, e2.trans (exists_congr fun i => and_congr_right fun h1 => and_congr_right fun h2 => ?_)⟩
  have hrep := hi.rep i (by omega)
  unfold val at hrep
  rw [hi.ini, hb] at hrep
  unfold Reported at hrep
  cases hl : lastRec c H i with
  | none =>
    rw [hl] at hrep; dsimp only at hrep; rw [hb] at hrep
    exact ⟨fun h => absurd hrep h, fun ⟨r, h, _⟩ => by cases h⟩
  | some r =>
    rw [hl] at hrep; dsimp only at hrep
    have := close_zero hc hrep
    constructor
    · intro h; exact ⟨r, rfl, fun hz => h (this.2 hz)⟩
    · rintro ⟨r', h, h3⟩
      injection h with h; subst h
      exact fun hz => h3 (this.1 hz)

theorem lastRec_own {c : Conf} {H : List Rec} (hs : H.Pairwise fun a b => a.idx < b.idx) {r : Rec} (hr : r ∈ H)
    (hk : r.b ≠ 0 ∨ c.gaps = true) : lastRec c H r.idx = some r := by
  obtain ⟨p, q, rfl⟩ := List.append_of_mem hr
  have h2 := (List.pairwise_cons.1 (List.pairwise_append.1 hs).2.1).1
  unfold lastRec
  rw [List.filter_append, List.filter_cons_of_pos (by simpa using hk)]
  rw [(List.filter_eq_nil_iff (l := q)).2 (fun x hx => by have := h2 x hx; simp; omega)]
  simp

/-- C29, for ranges where each segment was reported, or is after a segment without media. -/
theorem query_some {c : Conf} (hc : ConfOk c) (hg : c.gaps = true) {s : Track} {H : List Rec} {m : Nat} (h : Reach c s H m)
    {t : Tree} (ht : TreeOf s.nodes t) {start fin : Nat} (hm : m ≤ start) (hr : start < fin)
    (hd : ∀ i, start ≤ i → i < fin → (∃ r ∈ H, r.idx = i) ∨ ∀ r, lastRec c H i = some r → r.b = 0) :
    ∃ ans, segExists s t start fin = .ok ans ∧ (ans = true ↔ ∃ r ∈ H, start ≤ r.idx ∧ r.idx < fin ∧ r.b ≠ 0) := by
  have hi := reach_inv hc h
  obtain ⟨ans, e1, e2⟩ := query_exact hc hg h ht hm hr
  refine ⟨ans, e1, e2.trans ⟨?_, ?_⟩⟩
  · rintro ⟨i, h1, h2, r, h3, h4⟩
    rcases hd i h1 h2 with ⟨x, hx, rfl⟩ | h5
    · rw [lastRec_own hi.hist hx (.inr hg)] at h3
      injection h3 with h3; subst h3
      exact ⟨x, hx, h1, h2, h4⟩
    · exact absurd (h5 r h3) h4
  · rintro ⟨r, hr, h1, h2, h3⟩
    exact ⟨r.idx, h1, h2, r, lastRec_own hi.hist hr (.inr hg), h3⟩

/-! ## C30 -/

/-- C30. Whatever blocks a track was restored from, it has the value that the track had for each segment of the blocks. -/
theorem restored_values {c : Conf} (hc : ConfOk c) {s0 : Track} {H0 : List Rec} {m0 : Nat} (h0 : Reach c s0 H0 m0) {s : Track}
    {H : List Rec} {m : Nat} {r : Track} {p : Nat} (h : Chain c s0 H0 m0 s H m r p) {i : Nat} (h1 : m ≤ i) (h2 : i < p) :
    val r i = val s i := (chain_inv hc (reach_inv hc h0) h).2.same i h1 h2

/-- C30. Reading a block that was saved succeeds, when there is memory. -/
theorem restore_succeeds {c : Conf} (hc : ConfOk c) {s0 : Track} {H0 : List Rec} {m0 : Nat} (h0 : Reach c s0 H0 m0) {s : Track}
    {H : List Rec} {m : Nat} {r : Track} {p : Nat} (h : Chain c s0 H0 m0 s H m r p) {t : Tree} (ht : TreeOf s.nodes t) {max : Nat}
    (h1 : p ≤ max) : ∃ bytes, save s t ⟨p, max⟩ = .ok bytes ∧
      ∀ alloc, (bytes.getD []).length ≤ alloc → ∃ r', load r ⟨p, max⟩ alloc bytes = .ok r' := by
  obtain ⟨ih, mi⟩ := chain_inv hc (reach_inv hc h0) h
  have hlow := mi.low
  have hex : ∃ bytes, save s t ⟨p, max⟩ = .ok bytes := by
    unfold save
    rcases writeIndex_spec ih.wf ht ⟨p, max⟩ with ⟨_, hw⟩ | ⟨_, _, _, _, _, _, _, hw⟩ <;> rw [hw] <;> exact ⟨_, rfl⟩
  obtain ⟨bytes, hs⟩ := hex
  refine ⟨bytes, hs, fun alloc ha => ?_⟩
  obtain ⟨r2, e1, _⟩ := load_spec (sc := ⟨p, max⟩) ih.wf ih.ini ht h1 mi.wf mi.ini mi.idx mi.last
      (fun j hj _ => mi.same j (by dsimp only at hj; omega) (by dsimp only at hj; omega)) hs ha
  exact ⟨r2, e1⟩

/-- C30, for the first block. -/
theorem restore_succeeds_first {c : Conf} (hc : ConfOk c) {s : Track} {H : List Rec} {m : Nat} (h : Reach c s H m)
    {t : Tree} (ht : TreeOf s.nodes t) {sc : Scope} (h1 : sc.min ≤ sc.max) : ∃ bytes, save s t sc = .ok bytes ∧
      ∀ alloc, (bytes.getD []).length ≤ alloc → ∃ r', load (init c) sc alloc bytes = .ok r' := by
  have ih := reach_inv hc h
  have hex : ∃ bytes, save s t sc = .ok bytes := by
    unfold save
    rcases writeIndex_spec ih.wf ht sc with ⟨_, hw⟩ | ⟨_, _, _, _, _, _, _, hw⟩ <;> rw [hw] <;> exact ⟨_, rfl⟩
  obtain ⟨bytes, hs⟩ := hex
  refine ⟨bytes, hs, fun alloc ha => ?_⟩
  obtain ⟨i1, i2, i3, i4⟩ := init_wf c
  have hn := init_nodes c
  obtain ⟨r', e1, _⟩ := load_spec ih.wf ih.ini ht h1 i1 i2 (by rw [hn]; simp [elts]) i4 (fun _ _ hh => absurd hn hh) hs ha
  exact ⟨r', e1⟩

/-- The segments that come later, with memory for all of them. -/
def later (c : Conf) : Track → List Rec → Res Track
  | s, [] => .ok s
  | s, x :: l => do
    let s ← created c s true x.idx x.b
    later c s l

/-- Two tracks that report the same from `m` on and go on in the same way. -/
structure Same (c : Conf) (s r : Track) (m lim : Nat) : Prop where
  ws : WF s.nodes
  wr : WF r.nodes
  ini : r.initial = s.initial
  ls : s.lastBitrate = lastVal s * 100
  lr : r.lastBitrate = lastVal r * 100
  eq : lastVal r = lastVal s
  is : ∀ e ∈ elts s.nodes, e.idx < lim
  ir : ∀ e ∈ elts r.nodes, e.idx < lim
  ns : s.lastIdx = invalid ∨ s.lastIdx < lim
  nr : r.lastIdx = invalid ∨ r.lastIdx < lim
  same : ∀ i, m ≤ i → val r i = val s i

theorem created_total (c : Conf) (s : Track) (idx b : Nat) : ∃ s', created c s true idx b = .ok s' := by
  unfold created
  split
  · exact ⟨_, rfl⟩
  · split
    · exact ⟨_, rfl⟩
    · dsimp only
      split
      · exact ⟨_, rfl⟩
      · split
        · exact ⟨_, rfl⟩
        · obtain ⟨s1, h⟩ := push_ok { s with lastIdx := idx } ⟨idx, effective c b⟩
          rw [h, Res.bind_ok]; exact ⟨_, rfl⟩

theorem created_twice {c : Conf} (hc : ConfOk c) {s r : Track} {m lim idx b : Nat} (h : Same c s r m lim) (h1 : lim ≤ idx)
    (h2 : idx < invalid) (h3 : b < 2 ^ 32) : ∃ s' r', created c s true idx b = .ok s' ∧ created c r true idx b = .ok r' ∧
      Same c s' r' m (idx + 1) := by
  obtain ⟨s', es⟩ := created_total c s idx b
  obtain ⟨r', er⟩ := created_total c r idx b
  refine ⟨s', r', es, er, ?_⟩
  have is : ∀ e ∈ elts s.nodes, e.idx < idx := fun e he => by have := h.is e he; omega
  have ir : ∀ e ∈ elts r.nodes, e.idx < idx := fun e he => by have := h.ir e he; omega
  have is' : ∀ e ∈ elts s.nodes, e.idx < idx + 1 := fun e he => by have := h.is e he; omega
  have ir' : ∀ e ∈ elts r.nodes, e.idx < idx + 1 := fun e he => by have := h.ir e he; omega
  have ps := created_spec hc h.ws h.ls (by have := h.ns; omega) is h2 h3 es
  have pr := created_spec hc h.wr (by rw [h.lr, h.eq]) (by have := h.nr; omega) ir h2 h3 er
  rcases ps with ⟨o1, o2, e1⟩ | ⟨e1, hcl⟩ | ⟨ns, e1, hw, hz, hnr, ho, hf⟩
  · rcases pr with ⟨o1', o2', e1'⟩ | ⟨e1', hcl'⟩ | ⟨ns', e1', hw', hz', hnr', ho', hf'⟩
    · subst e1; subst e1'
      exact ⟨h.ws, h.wr, h.ini, h.ls, h.lr, h.eq, is', ir', by have := h.ns; omega, by have := h.nr; omega, h.same⟩
    · subst e1; subst e1'
      exact ⟨h.ws, h.wr, h.ini, h.ls, h.lr, h.eq, is', ir', by have := h.ns; omega, .inr (by show idx < _; omega), h.same⟩
    · exact absurd ⟨o1, o2⟩ ho'
  · rcases pr with ⟨o1', o2', e1'⟩ | ⟨e1', hcl'⟩ | ⟨ns', e1', hw', hz', hnr', ho', hf'⟩
    · subst e1; subst e1'
      exact ⟨h.ws, h.wr, h.ini, h.ls, h.lr, h.eq, is', ir', .inr (by show idx < _; omega), by have := h.nr; omega, h.same⟩
    · subst e1; subst e1'
      exact ⟨h.ws, h.wr, h.ini, h.ls, h.lr, h.eq, is', ir', .inr (by show idx < _; omega), .inr (by show idx < _; omega), h.same⟩
    · rcases hcl with h4 | h4
      · exact absurd h4 hz'
      · exact absurd h4 hnr'
  · rcases pr with ⟨o1', o2', e1'⟩ | ⟨e1', hcl'⟩ | ⟨ns', e1', hw', hz', hnr', ho', hf'⟩
    · exact absurd ⟨o1', o2'⟩ ho
    · rcases hcl' with h4 | h4
      · exact absurd h4 hz
      · exact absurd h4 hnr
    · subst e1; subst e1'
      refine ⟨hw, hw', h.ini, ?_, ?_, ?_, ?_, ?_, .inr (by show idx < _; omega), .inr (by show idx < _; omega), ?_⟩
      · unfold lastVal; dsimp only; rw [hf]; simp
      · unfold lastVal; dsimp only; rw [hf']; simp
      · unfold lastVal; dsimp only; rw [hf, hf']; simp
      · show ∀ e ∈ elts ns, _
        rw [hf]; intro e he
        rcases List.mem_append.1 he with he | he
        · exact is' e he
        · simp at he; rw [he]; show idx < _; omega
      · show ∀ e ∈ elts ns', _
        rw [hf']; intro e he
        rcases List.mem_append.1 he with he | he
        · exact ir' e he
        · simp at he; rw [he]; show idx < _; omega
      · intro i hi
        have := h.same i hi
        unfold val at this ⊢
        dsimp only
        rw [hf, hf', valAt_append, valAt_append, this]

theorem later_same {c : Conf} (hc : ConfOk c) : ∀ (l : List Rec) {s r : Track} {m lim : Nat}, Same c s r m lim →
    (l.Pairwise fun a b => a.idx < b.idx) → (∀ x ∈ l, lim ≤ x.idx ∧ x.idx < invalid ∧ x.b < 2 ^ 32) →
    ∃ s' r', later c s l = .ok s' ∧ later c r l = .ok r' ∧ ∀ i, m ≤ i → val r' i = val s' i
  | [], s, r, _, _, h, _, _ => ⟨s, r, rfl, rfl, h.same⟩
  | x :: l, s, r, m, lim, h, hs, hx => by
    have h1 := hx x (by simp)
    have h2 := List.pairwise_cons.1 hs
    obtain ⟨s1, r1, e1, e2, e3⟩ := created_twice hc h h1.1 h1.2.1 h1.2.2
    obtain ⟨s', r', e4, e5, e6⟩ := later_same hc l e3 h2.2 (fun y hy => ⟨by have := h2.1 y hy; omega, (hx y (by simp [hy])).2⟩)
    refine ⟨s', r', ?_, ?_, e6⟩
    · unfold later; rw [e1, Res.bind_ok]; exact e4
    · unfold later; rw [e2, Res.bind_ok]; exact e5

/-- C30, in part. When all segments so far are in the blocks, and the last bitrate times 100 fits in 32 bits, the restored track
records whatever segments come later as the track would have done. Missing: larger bitrates, for which it is false
(`restored_bitrate_wraps`). -/
theorem restored_goes_on_partial {c : Conf} (hc : ConfOk c) {s0 : Track} {H0 : List Rec} {m0 : Nat} (h0 : Reach c s0 H0 m0) {s : Track}
    {H : List Rec} {m : Nat} {r : Track} {p : Nat} (h : Chain c s0 H0 m0 s H m r p) (hp : ∀ x ∈ H, x.idx < p)
    (hb : ∀ x ∈ H, want c x.b * 100 < 2 ^ 32) (l : List Rec) (hl : l.Pairwise fun a b => a.idx < b.idx)
    (hx : ∀ x ∈ l, p ≤ x.idx ∧ x.idx < invalid ∧ x.b < 2 ^ 32) :
    ∃ s' r', later c s l = .ok s' ∧ later c r l = .ok r' ∧ ∀ i, m ≤ i → val r' i = val s' i := by
  obtain ⟨ih, mi⟩ := chain_inv hc (reach_inv hc h0) h
  have ir := mirror_inv ih mi hb
  have hes : ∀ e ∈ elts s.nodes, e.idx < p := fun e he => by
    obtain ⟨x, hx, e1, _⟩ := ih.elt e he; rw [← e1]; exact hp x hx
  have hlow := mi.low
  have hsame := mi.same (p - 1) (by omega) (by omega)
  rw [val_last (fun e he => by have := mi.idx e he; omega), val_last (fun e he => by have := hes e he; omega)] at hsame
  refine later_same hc l (lim := p) ⟨ih.wf, mi.wf, by rw [ih.ini, mi.ini], ih.last, ir.last, hsame, hes, mi.idx, ?_, .inl mi.lastIdx, ?_⟩ hl hx
  · rcases ih.lastIdx with h1 | ⟨x, hx, e⟩
    · exact .inl h1
    · right; rw [← e]; exact hp x hx
  · intro i hi
    rcases Nat.lt_or_ge i p with h1 | h1
    · exact mi.same i hi h1
    · rw [val_last (fun e he => by have := mi.idx e he; omega), val_last (fun e he => by have := hes e he; omega)]
      exact hsame

end Verif.SegmentInfo
