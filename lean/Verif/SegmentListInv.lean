import Verif.SegmentList

/-!
# Segment list: the list of segments that a segment list stands for, and the invariant

Specification: a segment has an index, a start time and a duration (`Seg`); a segment list stands for the list `segs` of
them.
-/

namespace Verif.SegmentList

structure Seg where
  idx : Nat
  time : Int
  dur : Nat
deriving Repr, DecidableEq

/-- Segments with the given durations, one after the other. -/
def seq (i : Nat) (t : Int) : List Nat → List Seg
  | [] => []
  | d :: ds => ⟨i, t, d⟩ :: seq (i + 1) (t + d) ds

def durs (es : List Elt) : List Nat := es.flatMap fun e => List.replicate e.count e.dur

def Node.segs (n : Node) : List Seg := seq n.key n.time (durs n.elts)

/-- The segments in a segment list. -/
def segs (s : SL) : List Seg := s.nodes.flatMap Node.segs

/-- The time at the end of a node. -/
def Node.fin (n : Node) : Int := n.time + ((durs n.elts).sum : Nat)

/-- A limit for times (positive or negative). -/
def B : Int := 2 ^ 61

structure NodeOk (n : Node) : Prop where
  ne : n.elts ≠ []
  len : n.elts.length ≤ maxElts
  pos : ∀ e ∈ n.elts, 0 < e.count
  small : ∀ e ∈ n.elts, e.dur < 2 ^ 32
  last : n.last + 1 = n.key + (durs n.elts).length
  bound : n.last < 2 ^ 32
  lo : -B ≤ n.time
  hi : n.fin ≤ B

def Touch (n m : Node) : Prop := m.key = n.last + 1 ∧ m.time = n.fin

instance (n m : Node) : Decidable (Touch n m) := inferInstanceAs (Decidable (_ ∧ _))

/-- Of nodes that follow each other. With `mono` times do not go back. -/
structure Link (mono : Bool) (n m : Node) : Prop where
  idx : n.last < m.key
  period : m.period = if Touch n m then n.period else n.period + 1
  mono : mono = true → n.fin ≤ m.time

/-- Every two neighbours are in the relation. -/
def Adj {α : Type} (R : α → α → Prop) (l : List α) : Prop := ∀ a x y b, l = a ++ x :: y :: b → R x y

structure Inv (mono : Bool) (s : SL) : Prop where
  ok : ∀ n ∈ s.nodes, NodeOk n
  link : Adj (Link mono) s.nodes
  last : ∀ n, s.nodes.getLast? = some n → s.lastTime = n.fin
  cn : s.nodeCount = s.nodes.length
  ce : s.eltCount = (s.nodes.map (·.elts.length)).sum
  cs : s.segCount = (segs s).length

/-! ## Lists -/

theorem snoc_cases {α : Type} (l : List α) : l = [] ∨ ∃ a x, l = a ++ [x] := by
  rcases List.eq_nil_or_concat l with e | ⟨a, x, e⟩
  · exact .inl e
  · exact .inr ⟨a, x, by rw [e, List.concat_eq_append]⟩

theorem adj_nil {α : Type} (R : α → α → Prop) : Adj R [] := fun a x y b h => by cases a <;> cases h

theorem adj_snoc {α : Type} {R : α → α → Prop} {l : List α} {x : α} :
    Adj R (l ++ [x]) ↔ Adj R l ∧ ∀ z, l.getLast? = some z → R z x := by
  constructor
  · intro h
    refine ⟨fun a y z b e => h a y z (b ++ [x]) (by rw [e]; simp), fun z hz => ?_⟩
    obtain ⟨l', rfl⟩ : ∃ l', l = l' ++ [z] := by
      rw [List.getLast?_eq_some_iff] at hz; exact hz
    exact h l' z x [] (by simp)
  · rintro ⟨h1, h2⟩ a y z b e
    rcases snoc_cases b with rfl | ⟨b', w, rfl⟩
    · have e' : l ++ [x] = (a ++ [y]) ++ [z] := by rw [e]; simp
      obtain ⟨e1, e2⟩ := List.append_inj' e' rfl
      injection e2 with e2
      rw [← e2]
      exact h2 y (by rw [e1]; simp)
    · have e' : l ++ [x] = (a ++ y :: z :: b') ++ [w] := by rw [e]; simp
      obtain ⟨e1, e2⟩ := List.append_inj' e' rfl
      exact h1 a y z b' e1

theorem adj_tail {α : Type} {R : α → α → Prop} {x : α} {l : List α} (h : Adj R (x :: l)) : Adj R l :=
  fun a y z b e => h (x :: a) y z b (by rw [e]; rfl)

theorem adj_cons {α : Type} {R : α → α → Prop} {x y : α} {l : List α} : Adj R (x :: y :: l) ↔ R x y ∧ Adj R (y :: l) := by
  refine ⟨fun h => ⟨h [] x y l rfl, adj_tail h⟩, fun ⟨h1, h2⟩ a u v b e => ?_⟩
  cases a with
  | nil => injection e with e1 e2; injection e2 with e2 e3; rw [← e1, ← e2]; exact h1
  | cons w a => injection e with _ e2; exact h2 a u v b e2

theorem adj_append {α : Type} {R : α → α → Prop} {l k : List α} (h : Adj R (l ++ k)) : Adj R l ∧ Adj R k :=
  ⟨fun a y z b e => h a y z (b ++ k) (by rw [e]; simp), fun a y z b e => h (l ++ a) y z b (by rw [e]; simp)⟩

theorem adj_single {α : Type} (R : α → α → Prop) (x : α) : Adj R [x] := by
  intro a y z b e
  cases a with
  | nil => exact nomatch e
  | cons w a => injection e with _ e; cases a <;> exact nomatch e

/-- A relation between neighbours that is transitive holds between any two. -/
theorem adj_pairwise {α : Type} {R : α → α → Prop} (ht : ∀ x y z, R x y → R y z → R x z) : ∀ (l : List α), Adj R l → l.Pairwise R
  | [], _ => .nil
  | [x], _ => by simp
  | x :: y :: l, h => by
    obtain ⟨h1, h2⟩ := adj_cons.1 h
    have ih := adj_pairwise ht (y :: l) h2
    refine List.pairwise_cons.2 ⟨fun z hz => ?_, ih⟩
    rcases List.mem_cons.1 hz with e | hz
    · rw [e]; exact h1
    · exact ht _ _ _ h1 ((List.pairwise_cons.1 ih).1 z hz)

theorem setLast_concat {α : Type} (l : List α) (x y : α) : setLast (l ++ [x]) y = l ++ [y] := by
  unfold setLast; rw [List.dropLast_concat]

theorem getLast_concat {α : Type} {l : List α} {x : α} (h : l.getLast? = some x) : ∃ l', l = l' ++ [x] :=
  List.getLast?_eq_some_iff.1 h

/-! ## Segments -/

theorem seq_append : ∀ (a : List Nat) (i : Nat) (t : Int) (b : List Nat),
    seq i t (a ++ b) = seq i t a ++ seq (i + a.length) (t + (a.sum : Nat)) b
  | [], i, t, b => by simp [seq]
  | d :: a, i, t, b => by
    rw [List.cons_append, seq, seq, seq_append a, List.length_cons, List.sum_cons, List.cons_append]
    congr 3 <;> omega

theorem seq_length : ∀ (a : List Nat) (i : Nat) (t : Int), (seq i t a).length = a.length
  | [], _, _ => rfl
  | _ :: a, i, t => by rw [seq, List.length_cons, seq_length a, List.length_cons]

theorem seq_durs : ∀ (a : List Nat) (i : Nat) (t : Int), (seq i t a).map (·.dur) = a
  | [], _, _ => rfl
  | _ :: a, i, t => by rw [seq, List.map_cons, seq_durs a]

theorem seq_mem : ∀ (a : List Nat) (i : Nat) (t : Int) (g : Seg), g ∈ seq i t a →
    i ≤ g.idx ∧ g.idx < i + a.length ∧ t ≤ g.time ∧ g.time + (g.dur : Nat) ≤ t + (a.sum : Nat)
  | [], _, _, _, h => absurd h List.not_mem_nil
  | d :: a, i, t, g, h => by
    rw [seq] at h
    rw [List.length_cons, List.sum_cons]
    rcases List.mem_cons.1 h with e | h
    · subst e; dsimp only; omega
    · obtain ⟨h1, h2, h3, h4⟩ := seq_mem a _ _ g h
      omega

theorem seq_sorted : ∀ (a : List Nat) (i : Nat) (t : Int), (seq i t a).Pairwise (fun g h => g.idx < h.idx)
  | [], _, _ => .nil
  | _ :: a, _, _ => List.pairwise_cons.2 ⟨fun g hg => (seq_mem a _ _ g hg).1, seq_sorted a _ _⟩

theorem durs_append (a b : List Elt) : durs (a ++ b) = durs a ++ durs b := by unfold durs; rw [List.flatMap_append]

theorem durs_cons (e : Elt) (es : List Elt) : durs (e :: es) = List.replicate e.count e.dur ++ durs es := by
  unfold durs; rw [List.flatMap_cons]

theorem durs_one (e : Elt) : durs [e] = List.replicate e.count e.dur := by rw [durs_cons]; simp [durs]

theorem durs_nil : durs [] = [] := rfl

/-- One more in the last run. -/
theorem durs_succ (a : List Elt) (e : Elt) : durs (a ++ [{ e with count := e.count + 1 }]) = durs (a ++ [e]) ++ [e.dur] := by
  rw [durs_append, durs_append, durs_one, durs_one, List.append_assoc]
  dsimp only
  rw [List.replicate_succ']

theorem durs_pos {es : List Elt} (h : es ≠ []) (hp : ∀ e ∈ es, 0 < e.count) : 0 < (durs es).length := by
  cases es with
  | nil => exact absurd rfl h
  | cons e es =>
    rw [durs_cons, List.length_append, List.length_replicate]
    have := hp e (List.mem_cons_self ..)
    omega

theorem NodeOk.key_le {n : Node} (h : NodeOk n) : n.key ≤ n.last := by
  have := durs_pos h.ne h.pos
  have := h.last
  omega

theorem Link.trans_idx {mono : Bool} {l : List Node} (hk : ∀ n ∈ l, NodeOk n) (h : Adj (Link mono) l) :
    l.Pairwise (fun n m => n.last < m.key) := by
  induction l with
  | nil => exact .nil
  | cons n l ih =>
    have ih' := ih (fun m hm => hk m (List.mem_cons_of_mem _ hm)) (adj_tail h)
    refine List.pairwise_cons.2 ⟨fun m hm => ?_, ih'⟩
    cases l with
    | nil => exact absurd hm List.not_mem_nil
    | cons k l =>
      have h1 := (adj_cons.1 h).1.idx
      rcases List.mem_cons.1 hm with e | hm
      · rw [e]; exact h1
      · have := (List.pairwise_cons.1 ih').1 m hm
        have := (hk k (by simp)).key_le
        omega

theorem Link.trans_time {l : List Node} (h : Adj (Link true) l) : l.Pairwise (fun n m => n.fin ≤ m.time) := by
  induction l with
  | nil => exact .nil
  | cons n l ih =>
    have ih' := ih (adj_tail h)
    refine List.pairwise_cons.2 ⟨fun m hm => ?_, ih'⟩
    cases l with
    | nil => exact absurd hm List.not_mem_nil
    | cons k l =>
      have h1 := (adj_cons.1 h).1.mono rfl
      rcases List.mem_cons.1 hm with e | hm
      · rw [e]; exact h1
      · have := (List.pairwise_cons.1 ih').1 m hm
        have : k.time ≤ k.fin := by unfold Node.fin; omega
        omega

theorem segs_sorted {mono : Bool} {s : SL} (h : Inv mono s) : (segs s).Pairwise (fun g k => g.idx < k.idx) := by
  unfold segs
  rw [List.pairwise_flatMap]
  refine ⟨fun n _ => seq_sorted .., ?_⟩
  refine List.Pairwise.imp_of_mem ?_ (Link.trans_idx h.ok h.link)
  intro n m hn hm hlt g hg k hk
  have h1 := seq_mem _ _ _ g hg
  have h2 := seq_mem _ _ _ k hk
  have := (h.ok n hn).last
  omega

theorem node_segs_ne {n : Node} (h : NodeOk n) : n.segs ≠ [] := by
  intro e
  have := congrArg List.length e
  unfold Node.segs at this
  rw [seq_length] at this
  have := durs_pos h.ne h.pos
  simp_all

/-! ## Adding -/

theorem i64_ok {x : Int} (h1 : -(2 * B) ≤ x) (h2 : x ≤ 2 * B) : i64 x = .ok x := by
  unfold i64 B at *
  rw [if_pos ⟨by omega, by omega⟩]

theorem i64_ok' {x : Int} (h1 : -(3 * B) ≤ x) (h2 : x ≤ 3 * B) : i64 x = .ok x := by
  unfold i64 B at *
  rw [if_pos ⟨by omega, by omega⟩]

theorem add32_ok {a b : Nat} (h : a + b < 2 ^ 32) : add32 a b = a + b := if_pos h

theorem inv_of_concat {mono : Bool} {s : SL} {l : List Node} {n : Node} (hn : s.nodes = l ++ [n]) (hl : ∀ m ∈ l, NodeOk m)
    (h1 : Adj (Link mono) l) (ho : NodeOk n) (h2 : ∀ z, l.getLast? = some z → Link mono z n) (ht : s.lastTime = n.fin)
    (cn : s.nodeCount = s.nodes.length) (ce : s.eltCount = (s.nodes.map (·.elts.length)).sum)
    (cs : s.segCount = (segs s).length) : Inv mono s := by
  refine ⟨fun m hm => ?_, by rw [hn]; exact adj_snoc.2 ⟨h1, h2⟩, fun m hm => ?_, cn, ce, cs⟩
  · rw [hn] at hm
    rcases List.mem_append.1 hm with hm | hm
    · exact hl m hm
    · rw [List.mem_singleton.1 hm]; exact ho
  · rw [hn, List.getLast?_concat] at hm; injection hm with hm; rw [← hm]; exact ht

/-- What the caller of `add` sees to. -/
def AddOk (mono : Bool) (l : List Seg) (idx : Nat) (time : Int) (dur : Nat) : Prop :=
  (∀ g, l.getLast? = some g → g.idx < idx ∧ (mono = true → g.time + (g.dur : Nat) ≤ time)) ∧ idx < 2 ^ 32 ∧ dur < 2 ^ 32 ∧
    -B ≤ time ∧ time + (dur : Nat) ≤ B

/-- The last segment of a node. -/
theorem node_last {n : Node} (h : NodeOk n) : ∃ g, n.segs.getLast? = some g ∧ g.idx = n.last ∧ g.time + (g.dur : Nat) = n.fin := by
  have hp := durs_pos h.ne h.pos
  unfold Node.segs
  rcases snoc_cases (durs n.elts) with e | ⟨ds, d, e⟩
  · rw [e] at hp; exact absurd hp (by simp)
  · have hl := h.last
    rw [e] at hl ⊢
    rw [seq_append, List.getLast?_append]
    refine ⟨⟨n.key + ds.length, n.time + (ds.sum : Nat), d⟩, rfl, ?_, ?_⟩
    · simp at hl; show n.key + ds.length = n.last; omega
    · unfold Node.fin; rw [e]; simp; omega

theorem segs_last {mono : Bool} {s : SL} (h : Inv mono s) {n : Node} (hn : s.nodes.getLast? = some n) :
    ∃ g, (segs s).getLast? = some g ∧ g.idx = n.last ∧ g.time + (g.dur : Nat) = s.lastTime := by
  obtain ⟨l, e⟩ := getLast_concat hn
  have ho := h.ok n (by rw [e]; simp)
  obtain ⟨g, h1, h2, h3⟩ := node_last ho
  refine ⟨g, ?_, h2, by rw [h.last n hn]; exact h3⟩
  unfold segs
  rw [e, List.flatMap_append, List.flatMap_singleton, List.getLast?_append, h1]
  rfl

/-- The last node grows by a segment. -/
theorem grow {mono : Bool} {s s' : SL} (h : Inv mono s) {l : List Node} {n : Node} (hn : s.nodes = l ++ [n]) {es : List Elt}
    {dur : Nat} (he : durs es = durs n.elts ++ [dur]) (hlen : es.length ≤ maxElts) (hpos : ∀ e ∈ es, 0 < e.count)
    (hsm : ∀ e ∈ es, e.dur < 2 ^ 32) (hb : n.last + 1 < 2 ^ 32) (hB : s.lastTime + (dur : Nat) ≤ B)
    (e1 : s'.nodes = l ++ [{ n with elts := es, last := n.last + 1 }]) (e2 : s'.lastTime = s.lastTime + (dur : Nat))
    (e3 : s'.nodeCount = s.nodeCount) (e4 : s'.eltCount + n.elts.length = s.eltCount + es.length)
    (e5 : s'.segCount = s.segCount + 1) :
    Inv mono s' ∧ segs s' = segs s ++ [⟨n.last + 1, s.lastTime, dur⟩] := by
  have ho := h.ok n (by rw [hn]; simp)
  have hlast := h.last n (by rw [hn]; simp)
  have hlink := h.link
  rw [hn, adj_snoc] at hlink
  have hseg : segs s' = segs s ++ [⟨n.last + 1, s.lastTime, dur⟩] := by
    unfold segs
    rw [e1, hn, List.flatMap_append, List.flatMap_append, List.append_assoc, List.flatMap_singleton, List.flatMap_singleton]
    congr 1
    unfold Node.segs
    dsimp only
    rw [he, seq_append, ho.last, hlast]
    rfl
  have hfin : ({ n with elts := es, last := n.last + 1 } : Node).fin = n.fin + (dur : Nat) := by
    unfold Node.fin
    dsimp only
    rw [he]
    simp
    omega
  refine ⟨?_, hseg⟩
  refine inv_of_concat e1 (fun m hm => h.ok m (by rw [hn]; exact List.mem_append_left _ hm)) hlink.1 ?_ ?_ ?_ ?_ ?_ ?_
  · refine ⟨?_, hlen, hpos, hsm, ?_, hb, ho.lo, ?_⟩
    · intro e; dsimp only at e; rw [e] at he; simp [durs] at he
    · dsimp only; rw [he]; have := ho.last; simp; omega
    · rw [hfin, ← hlast]; exact hB
  · intro z hz
    have := hlink.2 z hz
    exact ⟨this.idx, this.period, this.mono⟩
  · rw [e2, hfin, hlast]
  · rw [e1, e3, h.cn, hn]; simp
  · rw [e1]
    have := h.ce
    rw [hn] at this
    simp at this ⊢
    omega
  · rw [hseg, e5, h.cs]; simp

/-- A new node. -/
theorem grow_new {mono : Bool} {s s' : SL} (h : Inv mono s) {idx dur period : Nat} {time : Int} {alloc : Bool} (ha : AddOk mono (segs s) idx time dur)
    (hp : ∀ n, s.nodes.getLast? = some n → period = if idx = n.last + 1 ∧ time = n.fin then n.period else n.period + 1)
    (he : addNode s alloc idx time dur period = .ok s') : Inv mono s' ∧ segs s' = segs s ++ [⟨idx, time, dur⟩] := by
  obtain ⟨a1, a2, a3, a4, a5⟩ := ha
  unfold addNode at he
  cases alloc with
  | false => exact nomatch he
  | true =>
    rw [if_pos rfl, i64_ok (by unfold B at *; omega) (by unfold B at *; omega)] at he
    injection he with he
    subst he
    have hseg : ∀ c1 c2 c3 t, segs { s with nodes := s.nodes ++ [{ key := idx, time, last := idx, period, elts := [{ dur, count := 1 }] }], nodeCount := c1, eltCount := c2, segCount := c3, lastTime := t } = segs s ++ [⟨idx, time, dur⟩] := by
      intro _ _ _ _
      unfold segs
      rw [List.flatMap_append, List.flatMap_singleton]
      rfl
    refine ⟨?_, hseg _ _ _ _⟩
    refine inv_of_concat rfl h.ok h.link ?_ ?_ ?_ ?_ ?_ ?_
    · refine ⟨by simp, by simp [maxElts], by simp, by simpa using a3, by simp [durs], a2, a4, ?_⟩
      unfold Node.fin; simp [durs]; exact a5
    · intro z hz
      obtain ⟨g, g1, g2, g3⟩ := segs_last h hz
      obtain ⟨b1, b2⟩ := a1 g g1
      rw [g2] at b1
      rw [g3, h.last z hz] at b2
      exact ⟨b1, hp z hz, b2⟩
    · unfold Node.fin; simp [durs]
    · dsimp only; rw [h.cn]; simp
    · dsimp only; rw [h.ce]; simp
    · rw [hseg]; dsimp only; rw [h.cs]; simp

theorem add_spec {mono : Bool} {s s' : SL} (h : Inv mono s) {idx dur : Nat} {time : Int} {alloc : Bool}
    (ha : AddOk mono (segs s) idx time dur) (he : add s alloc idx time dur = .ok s') :
    Inv mono s' ∧ segs s' = segs s ++ [⟨idx, time, dur⟩] := by
  unfold add at he
  cases hn : s.nodes.getLast? with
  | none =>
    rw [hn] at he
    exact grow_new h ha (fun n e => by rw [hn] at e; exact nomatch e) he
  | some n =>
    rw [hn] at he
    dsimp only at he
    obtain ⟨l, el⟩ := getLast_concat hn
    have ho := h.ok n (by rw [el]; simp)
    obtain ⟨g, g1, g2, g3⟩ := segs_last h hn
    obtain ⟨b1, b2⟩ := ha.1 g g1
    rw [g2] at b1
    have h32 : add32 n.last 1 = n.last + 1 := add32_ok (by have := ha.2.1; omega)
    rw [h32] at he
    have hlast := h.last n hn
    by_cases hc : time = s.lastTime ∧ idx = n.last + 1
    · rw [if_pos hc] at he
      obtain ⟨c1, c2⟩ := hc
      subst c1 c2
      obtain ⟨es, e, ee⟩ : ∃ es e, n.elts = es ++ [e] := by
        rcases snoc_cases n.elts with e | ⟨es, e, ee⟩
        · exact absurd e ho.ne
        · exact ⟨es, e, ee⟩
      have hi : i64 (s.lastTime + (dur : Nat)) = .ok (s.lastTime + (dur : Nat)) :=
        i64_ok (by have := ha.2.2.2.1; unfold B at *; omega) (by have := ha.2.2.2.2; unfold B at *; omega)
      have hge : n.elts.getLast? = some e := by rw [ee]; simp
      rw [hge] at he
      dsimp only at he
      by_cases hd : e.dur = dur
      · rw [if_pos hd, hi] at he
        injection he with he
        refine grow h el (es := setLast n.elts { e with count := e.count + 1 }) ?_ ?_ ?_ ?_ ?_ ha.2.2.2.2 ?_ ?_ ?_ ?_ ?_
        · rw [ee, setLast_concat, durs_succ, hd]
        · have := ho.len; rw [ee, setLast_concat]; rw [ee] at this; simpa using this
        · intro x hx
          rw [ee, setLast_concat] at hx
          rcases List.mem_append.1 hx with hx | hx
          · exact ho.pos x (by rw [ee]; exact List.mem_append_left _ hx)
          · rw [List.mem_singleton.1 hx]; exact Nat.succ_pos _
        · intro x hx
          rw [ee, setLast_concat] at hx
          rcases List.mem_append.1 hx with hx | hx
          · exact ho.small x (by rw [ee]; exact List.mem_append_left _ hx)
          · rw [List.mem_singleton.1 hx]; exact ho.small e (by rw [ee]; simp)
        · exact ha.2.1
        · rw [← he]; dsimp only; rw [el, setLast_concat]
        · rw [← he]
        · rw [← he]
        · rw [← he]; dsimp only; rw [ee, setLast_concat]; simp
        · rw [← he]
      · rw [if_neg hd] at he
        by_cases hl : n.elts.length < maxElts
        · rw [if_pos hl, hi] at he
          injection he with he
          refine grow h el (es := n.elts ++ [{ dur, count := 1 }]) ?_ ?_ ?_ ?_ ?_ ha.2.2.2.2 ?_ ?_ ?_ ?_ ?_
          · rw [durs_append, durs_one]; rfl
          · simp; omega
          · intro x hx
            rcases List.mem_append.1 hx with hx | hx
            · exact ho.pos x hx
            · rw [List.mem_singleton.1 hx]; exact Nat.one_pos
          · intro x hx
            rcases List.mem_append.1 hx with hx | hx
            · exact ho.small x hx
            · rw [List.mem_singleton.1 hx]; exact ha.2.2.1
          · exact ha.2.1
          · rw [← he]; dsimp only; rw [el, setLast_concat]
          · rw [← he]
          · rw [← he]
          · rw [← he]; simp; omega
          · rw [← he]
        · rw [if_neg hl] at he
          refine grow_new h ha (fun m hm => ?_) he
          rw [hn] at hm; injection hm with hm; subst hm
          rw [if_pos ⟨rfl, hlast⟩]
    · rw [if_neg hc] at he
      refine grow_new h ha (fun m hm => ?_) he
      rw [hn] at hm; injection hm with hm; subst hm
      rw [if_neg (fun e => hc ⟨by rw [hlast]; exact e.2, e.1⟩)]

/-! ## Updating the last segment -/

/-- The last segment of the last node gets another duration. -/
theorem relast {mono : Bool} {s s' : SL} (h : Inv mono s) {l : List Node} {n : Node} (hn : s.nodes = l ++ [n]) {es : List Elt}
    {ds : List Nat} {dur : Nat} (h0 : durs n.elts = ds ++ [0]) (he : durs es = ds ++ [dur]) (hlen : es.length ≤ maxElts)
    (hpos : ∀ e ∈ es, 0 < e.count) (hsm : ∀ e ∈ es, e.dur < 2 ^ 32) (hB : s.lastTime + (dur : Nat) ≤ B)
    (e1 : s'.nodes = l ++ [{ n with elts := es }]) (e2 : s'.lastTime = s.lastTime + (dur : Nat))
    (e3 : s'.nodeCount = s.nodeCount) (e4 : s'.eltCount + n.elts.length = s.eltCount + es.length)
    (e5 : s'.segCount = s.segCount) :
    Inv mono s' ∧ ∃ H, segs s = H ++ [⟨n.last, s.lastTime, 0⟩] ∧ segs s' = H ++ [⟨n.last, s.lastTime, dur⟩] := by
  have ho := h.ok n (by rw [hn]; simp)
  have hlast := h.last n (by rw [hn]; simp)
  have hlink := h.link
  rw [hn, adj_snoc] at hlink
  have hL := ho.last
  rw [h0] at hL
  simp only [List.length_append, List.length_singleton] at hL
  have hF : n.fin = n.time + (ds.sum : Nat) := by unfold Node.fin; rw [h0]; simp
  have hs : segs s = (l.flatMap Node.segs ++ seq n.key n.time ds) ++ [⟨n.last, s.lastTime, 0⟩] := by
    unfold segs
    rw [hn, List.flatMap_append, List.flatMap_singleton, List.append_assoc]
    unfold Node.segs
    rw [h0, seq_append, hlast, hF, show n.last = n.key + ds.length by omega]
    rfl
  have hs' : segs s' = (l.flatMap Node.segs ++ seq n.key n.time ds) ++ [⟨n.last, s.lastTime, dur⟩] := by
    unfold segs
    rw [e1, List.flatMap_append, List.flatMap_singleton, List.append_assoc]
    unfold Node.segs
    dsimp only
    rw [he, seq_append, hlast, hF, show n.last = n.key + ds.length by omega]
    rfl
  have hfin : ({ n with elts := es } : Node).fin = n.fin + (dur : Nat) := by
    rw [hF]
    unfold Node.fin
    dsimp only
    rw [he]
    simp
    omega
  refine ⟨?_, _, hs, hs'⟩
  refine inv_of_concat e1 (fun m hm => h.ok m (by rw [hn]; exact List.mem_append_left _ hm)) hlink.1 ?_ ?_ ?_ ?_ ?_ ?_
  · refine ⟨?_, hlen, hpos, hsm, ?_, ho.bound, ho.lo, ?_⟩
    · intro e; dsimp only at e; rw [e] at he; simp [durs] at he
    · dsimp only; rw [he]; simp; omega
    · rw [hfin, ← hlast]; exact hB
  · intro z hz
    have := hlink.2 z hz
    exact ⟨this.idx, this.period, this.mono⟩
  · rw [e2, hfin, hlast]
  · rw [e1, e3, h.cn, hn]; simp
  · rw [e1]
    have := h.ce
    rw [hn] at this
    simp at this ⊢
    omega
  · rw [hs', e5, h.cs, hs]; simp

/-- Without the last node. -/
theorem inv_pop {mono : Bool} {s : SL} (h : Inv mono s) {l : List Node} {m n : Node} (hn : s.nodes = (l ++ [m]) ++ [n]) :
    Inv mono { s with nodes := l ++ [m], nodeCount := s.nodeCount - 1, eltCount := s.eltCount - n.elts.length,
                      segCount := s.segCount - n.segs.length, lastTime := m.fin } := by
  have hlink := h.link
  rw [hn, adj_snoc] at hlink
  refine ⟨fun k hk => h.ok k (by rw [hn]; exact List.mem_append_left _ hk), hlink.1, fun k hk => ?_, ?_, ?_, ?_⟩
  · dsimp only at hk ⊢; rw [List.getLast?_concat] at hk; injection hk with hk; rw [hk]
  · dsimp only; rw [h.cn, hn]; simp
  · dsimp only; rw [h.ce, hn]; simp; omega
  · dsimp only; rw [h.cs]; unfold segs; rw [hn]; simp; omega

theorem update_spec {mono : Bool} {s s' : SL} (h : Inv mono s) {dur : Nat} (hd : dur < 2 ^ 32) {H : List Seg} {g : Seg}
    (hg : segs s = H ++ [g]) (hB : g.time + (dur : Nat) ≤ B) (he : updateLast s dur = .ok s') :
    Inv mono s' ∧ segs s' = H ++ [{ g with dur }] ∧ g.dur = pending := by
  unfold updateLast at he
  cases hn : s.nodes.getLast? with
  | none => rw [hn] at he; exact nomatch he
  | some n =>
    rw [hn] at he
    dsimp only at he
    obtain ⟨l, el⟩ := getLast_concat hn
    have ho := h.ok n (by rw [el]; simp)
    obtain ⟨es, e, ee⟩ : ∃ es e, n.elts = es ++ [e] := by
      rcases snoc_cases n.elts with e | h
      · exact absurd e ho.ne
      · exact h
    have hge : n.elts.getLast? = some e := by rw [ee]; simp
    rw [hge] at he
    dsimp only at he
    by_cases hc : e.count = 1
    · by_cases hz : e.dur = pending
      · rw [if_neg (by simpa using hc), if_neg (by simpa using hz)] at he
        have hed : durs [e] = [0] := by rw [durs_one, hc, hz]; rfl
        have h0 : durs n.elts = durs es ++ [0] := by rw [ee, durs_append, hed]
        have hlast := h.last n hn
        have hlo := ho.lo
        have hfin : n.fin = n.time + ((durs es).sum : Nat) := by unfold Node.fin; rw [h0]; simp
        -- the last segment
        have hgg : ∀ H', segs s = H' ++ [⟨n.last, s.lastTime, 0⟩] → H' = H ∧ g = ⟨n.last, s.lastTime, 0⟩ := by
          intro H' e
          rw [hg] at e
          obtain ⟨e1, e2⟩ := List.append_inj' e rfl
          injection e2 with e2
          exact ⟨e1.symm, e2⟩
        have hsl : ∃ H', segs s = H' ++ [⟨n.last, s.lastTime, 0⟩] := by
          refine ⟨l.flatMap Node.segs ++ seq n.key n.time (durs es), ?_⟩
          have hL := ho.last
          rw [h0] at hL
          simp only [List.length_append, List.length_singleton] at hL
          unfold segs
          rw [el, List.flatMap_append, List.flatMap_singleton, List.append_assoc]
          unfold Node.segs
          rw [h0, seq_append, hlast, hfin, show n.last = n.key + (durs es).length by omega]
          rfl
        obtain ⟨H', hH'⟩ := hsl
        obtain ⟨_, hgv⟩ := hgg H' hH'
        have hBt : s.lastTime + (dur : Nat) ≤ B := by rw [hgv] at hB; exact hB
        have hi : i64 (s.lastTime + (dur : Nat)) = .ok (s.lastTime + (dur : Nat)) :=
          i64_ok (by rw [hlast, hfin]; unfold B at *; omega) (by unfold B at *; omega)
        rw [hi] at he
        simp only [Res.bind_ok] at he
        -- the duration is set
        have hnew : ∀ s1 : SL, s1 = { s with nodes := setLast s.nodes { n with elts := setLast n.elts { e with dur := dur } }, lastTime := s.lastTime + (dur : Nat) } →
            Inv mono s1 ∧ segs s1 = H ++ [{ g with dur }] ∧ g.dur = pending := by
          intro s1 e1
          obtain ⟨r1, K, r2, r3⟩ := relast h el (s' := s1) (es := setLast n.elts { e with dur := dur }) (ds := durs es) (dur := dur) h0
            (by rw [ee, setLast_concat, durs_append, durs_one, hc]; rfl)
            (by have := ho.len; rw [ee, setLast_concat]; rw [ee] at this; simpa using this)
            (by
              intro x hx
              rw [ee, setLast_concat] at hx
              rcases List.mem_append.1 hx with hx | hx
              · exact ho.pos x (by rw [ee]; exact List.mem_append_left _ hx)
              · rw [List.mem_singleton.1 hx]; dsimp only; omega)
            (by
              intro x hx
              rw [ee, setLast_concat] at hx
              rcases List.mem_append.1 hx with hx | hx
              · exact ho.small x (by rw [ee]; exact List.mem_append_left _ hx)
              · rw [List.mem_singleton.1 hx]; exact hd)
            hBt (by rw [e1]; dsimp only; rw [el, setLast_concat]) (by rw [e1]) (by rw [e1])
            (by rw [e1]; dsimp only; rw [ee, setLast_concat]; simp) (by rw [e1])
          obtain ⟨k1, k2⟩ := hgg K r2
          exact ⟨r1, by rw [r3, k1, k2], by rw [k2]; rfl⟩
        cases hp : n.elts.dropLast.getLast? with
        | some p =>
          rw [hp] at he
          dsimp only at he
          by_cases hpd : p.dur = dur
          · rw [if_neg (by simpa using hpd)] at he
            injection he with he
            rw [ee, List.dropLast_concat] at hp
            obtain ⟨fs, ef⟩ := getLast_concat hp
            have hes : setLast n.elts.dropLast { p with count := p.count + 1 } = fs ++ [{ p with count := p.count + 1 }] := by
              rw [ee, List.dropLast_concat, ef, setLast_concat]
            have hpm : p ∈ n.elts := by rw [ee, ef]; simp
            obtain ⟨r1, K, r2, r3⟩ := relast h el (s' := s') (es := fs ++ [{ p with count := p.count + 1 }]) (ds := durs es) (dur := dur) h0
              (by rw [durs_succ, ef, hpd])
              (by have := ho.len; rw [ee, ef] at this; simp at this ⊢; omega)
              (by
                intro x hx
                rcases List.mem_append.1 hx with hx | hx
                · exact ho.pos x (by rw [ee, ef]; simp [hx])
                · rw [List.mem_singleton.1 hx]; exact Nat.succ_pos _)
              (by
                intro x hx
                rcases List.mem_append.1 hx with hx | hx
                · exact ho.small x (by rw [ee, ef]; simp [hx])
                · rw [List.mem_singleton.1 hx]; exact ho.small p hpm)
              hBt (by rw [← he]; dsimp only; rw [el, setLast_concat, hes]) (by rw [← he]) (by rw [← he])
              (by
                have := h.ce
                rw [el] at this
                rw [← he, ee, ef]
                simp [ee, ef] at this ⊢
                omega) (by rw [← he])
            obtain ⟨k1, k2⟩ := hgg K r2
            exact ⟨r1, by rw [r3, k1, k2], by rw [k2]; rfl⟩
          · rw [if_pos hpd] at he
            injection he with he
            exact hnew s' he.symm
        | none =>
          rw [hp] at he
          dsimp only at he
          cases hm : s.nodes.dropLast.getLast? with
          | none =>
            rw [hm] at he
            injection he with he
            exact hnew s' he.symm
          | some m =>
            rw [hm] at he
            dsimp only at he
            cases hq : m.elts.getLast? with
            | none => rw [hq] at he; exact nomatch he
            | some p =>
              rw [hq] at he
              dsimp only at he
              by_cases hcc : m.period ≠ n.period ∨ p.dur ≠ dur
              · rw [if_pos hcc] at he
                injection he with he
                exact hnew s' he.symm
              · rw [if_neg hcc] at he
                injection he with he
                have hper : m.period = n.period := Decidable.byContradiction fun e => hcc (.inl e)
                have hpd : p.dur = dur := Decidable.byContradiction fun e => hcc (.inr e)
                rw [el, List.dropLast_concat] at hm
                obtain ⟨l', el'⟩ := getLast_concat hm
                have el2 : s.nodes = (l' ++ [m]) ++ [n] := by rw [el, el']
                obtain ⟨fs, ef⟩ := getLast_concat hq
                have hes0 : es = [] := by
                  rw [ee, List.dropLast_concat] at hp
                  exact List.getLast?_eq_none_iff.1 hp
                have hlk := h.link
                rw [el2, adj_snoc] at hlk
                have hl := hlk.2 m (by simp)
                have ht : Touch m n := by
                  have := hl.period
                  rw [hper] at this
                  by_cases ht : Touch m n
                  · exact ht
                  · rw [if_neg ht] at this; omega
                have hk : n.last = n.key := by
                  have := ho.last
                  rw [h0, hes0] at this
                  simp [durs] at this
                  exact this
                have hmo := h.ok m (by rw [el2]; simp)
                have hlt : s.lastTime = m.fin := by
                  rw [hlast, hfin, hes0, ht.2]; simp [durs]
                have hpop := inv_pop h el2
                have hns : n.segs = [⟨n.last, s.lastTime, 0⟩] := by
                  unfold Node.segs
                  rw [h0, hes0, hk, hlt, ht.2]
                  rfl
                have hcs : 0 < s.segCount := by rw [h.cs, hg]; simp
                have hce := h.ce
                rw [el2] at hce
                obtain ⟨r1, r2⟩ := grow hpop (s' := s') rfl (es := fs ++ [{ p with count := p.count + 1 }]) (dur := dur)
                  (by rw [durs_succ, ef, hpd])
                  (by have := hmo.len; rw [ef] at this; simpa using this)
                  (by
                    intro x hx
                    rcases List.mem_append.1 hx with hx | hx
                    · exact hmo.pos x (by rw [ef]; simp [hx])
                    · rw [List.mem_singleton.1 hx]; exact Nat.succ_pos _)
                  (by
                    intro x hx
                    rcases List.mem_append.1 hx with hx | hx
                    · exact hmo.small x (by rw [ef]; simp [hx])
                    · rw [List.mem_singleton.1 hx]; exact hmo.small p (by rw [ef]; simp))
                  (by have := ho.bound; have := ht.1; omega)
                  (by rw [← hlt]; exact hBt)
                  (by
                    rw [← he]; dsimp only; rw [el2, List.dropLast_concat, setLast_concat]
                    have : setLast m.elts { p with count := p.count + 1 } = fs ++ [{ p with count := p.count + 1 }] := by
                      rw [ef, setLast_concat]
                    rw [this, show n.last = m.last + 1 by rw [hk]; exact ht.1])
                  (by rw [← he, ← hlt])
                  (by rw [← he])
                  (by rw [← he, ef]; simp)
                  (by rw [← he]; dsimp only; rw [hns]; simp; omega)
                have hs0 : segs s = segs { s with nodes := l' ++ [m], nodeCount := s.nodeCount - 1, eltCount := s.eltCount - n.elts.length, segCount := s.segCount - n.segs.length, lastTime := m.fin } ++ [⟨n.last, s.lastTime, 0⟩] := by
                  unfold segs
                  rw [el2, List.flatMap_append, List.flatMap_singleton, hns]
                obtain ⟨k1, k2⟩ := hgg _ hs0
                refine ⟨r1, ?_, by rw [k2]; rfl⟩
                rw [r2, k1, k2, hlt, show n.last = m.last + 1 by rw [hk]; exact ht.1]
      · rw [if_neg (by simpa using hc), if_pos hz] at he
        exact nomatch he
    · rw [if_pos hc] at he
      exact nomatch he

/-! ## Freeing -/

theorem inv_tail {mono : Bool} {s : SL} {n m : Node} {l : List Node} (h : Inv mono { s with nodes := n :: m :: l }) :
    Inv mono { s with nodes := m :: l, nodeCount := s.nodeCount - 1, eltCount := s.eltCount - n.elts.length,
                      segCount := s.segCount - (n.last + 1 - n.key) } := by
  refine ⟨fun k hk => h.ok k (List.mem_cons_of_mem _ hk), adj_tail h.link, fun k hk => ?_, ?_, ?_, ?_⟩
  · exact h.last k (by dsimp only at hk ⊢; rw [List.getLast?_cons_cons]; exact hk)
  · have := h.cn; dsimp only at this ⊢; rw [this]; simp
  · have := h.ce; dsimp only at this ⊢; rw [this]; simp
  · have := h.cs
    have ho := (h.ok n (by simp)).last
    unfold segs at this ⊢
    dsimp only at this ⊢
    rw [List.flatMap_cons, List.length_append] at this
    have e : n.segs.length = (durs n.elts).length := seq_length ..
    omega

theorem freeLoop_spec {mono : Bool} (min : Nat) : ∀ (ns : List Node) (s : SL), Inv mono { s with nodes := ns } →
    Inv mono (freeLoop min ns s) ∧ ∃ pre, ns = pre ++ (freeLoop min ns s).nodes ∧ (ns ≠ [] → (freeLoop min ns s).nodes ≠ []) ∧
      ∀ n ∈ pre, n.last < min
  | [], s, h => ⟨h, [], rfl, fun e => absurd rfl e, fun _ h => absurd h List.not_mem_nil⟩
  | [n], s, h => ⟨h, [], rfl, fun _ => by simp [freeLoop], fun _ h => absurd h List.not_mem_nil⟩
  | n :: m :: l, s, h => by
    unfold freeLoop
    by_cases hc : min ≤ m.key
    · rw [if_pos hc]
      exact ⟨h, [], rfl, fun _ => by simp, fun _ h => absurd h List.not_mem_nil⟩
    · rw [if_neg hc]
      obtain ⟨h1, pre, h2, h3, h4⟩ := freeLoop_spec min (m :: l) { s with nodeCount := s.nodeCount - 1, eltCount := s.eltCount - n.elts.length, segCount := s.segCount - (n.last + 1 - n.key) } (inv_tail h)
      refine ⟨h1, n :: pre, by rw [List.cons_append, ← h2], fun _ => h3 (by simp), fun k hk => ?_⟩
      rcases List.mem_cons.1 hk with e | hk
      · rw [e]; have := (adj_cons.1 h.link).1.idx; omega
      · exact h4 k hk

theorem free_spec {mono : Bool} {s : SL} (h : Inv mono s) (min : Nat) :
    Inv mono (freeNodes s min) ∧ ∃ pre, segs s = pre ++ segs (freeNodes s min) ∧ (∀ g ∈ pre, g.idx < min) ∧
      (segs s ≠ [] → segs (freeNodes s min) ≠ []) := by
  obtain ⟨h1, pre, h2, h3, h4⟩ := freeLoop_spec (mono := mono) min s.nodes s h
  refine ⟨h1, pre.flatMap Node.segs, ?_, fun g hg => ?_, fun hne => ?_⟩
  · unfold segs
    rw [← List.flatMap_append]
    exact congrArg _ h2
  · obtain ⟨n, hn, hgn⟩ := List.mem_flatMap.1 hg
    have h5 := seq_mem _ _ _ g hgn
    have h6 := (h.ok n (by rw [h2]; exact List.mem_append_left _ hn)).last
    have := h4 n hn
    omega
  · intro e
    have hn : s.nodes ≠ [] := fun e => hne (by unfold segs; rw [e]; rfl)
    have := h3 hn
    cases hf : (freeNodes s min).nodes with
    | nil => exact this hf
    | cons n l =>
      have := node_segs_ne (h1.ok n (by show n ∈ (freeNodes s min).nodes; rw [hf]; simp))
      unfold segs at e
      rw [hf, List.flatMap_cons, List.append_eq_nil_iff] at e
      exact this e.1

theorem inv_init (mono : Bool) : Inv mono init :=
  ⟨fun _ h => absurd h List.not_mem_nil, adj_nil _, (fun _ h => nomatch h), rfl, rfl, rfl⟩

end Verif.SegmentList
