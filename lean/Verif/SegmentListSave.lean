import Verif.SegmentListRead2

/-!
# Segment list: what is saved, and its bytes
-/

namespace Verif.SegmentList

open Verif.Rstream (le32)

/-! ## Bytes -/

theorem num_le32 {x : Nat} (h : x < 2 ^ 32) : num (le32 x) = x := by
  unfold num le32
  simp only [List.foldr_cons, List.foldr_nil, UInt8.toNat_ofNat']
  omega

theorem num_append : ∀ (a b : List UInt8), num (a ++ b) = num a + 256 ^ a.length * num b
  | [], b => by simp [num]
  | x :: a, b => by
    have ih := num_append a b
    show x.toNat + 256 * num (a ++ b) = (x.toNat + 256 * num a) + 256 ^ (a.length + 1) * num b
    rw [ih, Nat.pow_succ, Nat.mul_add, Nat.mul_comm (256 ^ a.length) 256, Nat.mul_assoc]
    omega

theorem int64_le64 {x : Int} (h1 : -2 ^ 63 ≤ x) (h2 : x < 2 ^ 63) : int64 (le64 x) = x := by
  have hn : num (le64 x) = (x % 2 ^ 64).toNat := by
    unfold le64
    have h3 : (x % 2 ^ 64).toNat < 2 ^ 64 := by omega
    generalize (x % 2 ^ 64).toNat = y at h3
    rw [num_append, num_le32 (by omega), num_le32 (by omega)]
    show y % 2 ^ 32 + 256 ^ 4 * (y / 2 ^ 32) = y
    omega
  unfold int64
  rw [hn]
  by_cases hx : 0 ≤ x
  · have e : (x % 2 ^ 64).toNat = x.toNat := by rw [Int.emod_eq_of_lt hx (by omega)]
    rw [e, if_pos (by omega)]; omega
  · have e : (x % 2 ^ 64).toNat = (x + 2 ^ 64).toNat := by
      rw [← Int.add_emod_right, Int.emod_eq_of_lt (by omega) (by omega)]
    rw [e, if_neg (by omega)]; omega

theorem decode_bytes : ∀ (es : List Elt), (∀ e ∈ es, e.count < 2 ^ 32 ∧ e.dur < 2 ^ 32) →
    decode (es.flatMap fun e => le32 e.count ++ le32 e.dur) = es
  | [], _ => rfl
  | e :: es, h => by
    obtain ⟨h1, h2⟩ := h e (List.mem_cons_self ..)
    have ih := decode_bytes es (fun x hx => h x (List.mem_cons_of_mem _ hx))
    have e1 := num_le32 h1
    have e2 := num_le32 h2
    rw [List.flatMap_cons]
    have l1 : (le32 e.count).length = 4 := rfl
    have l2 : (le32 e.dur).length = 4 := rfl
    obtain ⟨a, b, c, d, ea⟩ : ∃ a b c d, le32 e.count = [a, b, c, d] := ⟨_, _, _, _, rfl⟩
    obtain ⟨a', b', c', d', eb⟩ : ∃ a b c d, le32 e.dur = [a, b, c, d] := ⟨_, _, _, _, rfl⟩
    rw [ea] at e1 ⊢
    rw [eb] at e2 ⊢
    show ({ count := num [a, b, c, d], dur := num [a', b', c', d'] } : Elt) :: decode _ = e :: es
    rw [e1, e2]
    exact congrArg _ ih

/-- The segments of a block. -/
def Block.segs (b : Block) : List Seg := seq b.idx b.time (durs b.elts)

structure BlockOk (sc : Scope) (b : Block) : Prop where
  ne : b.elts ≠ []
  pos : ∀ e ∈ b.elts, 0 < e.count
  small : ∀ e ∈ b.elts, e.dur < 2 ^ 32
  lo : sc.min ≤ b.idx
  fits : b.idx + (durs b.elts).length ≤ sc.max + 1
  tlo : -B ≤ b.time
  thi : b.time + ((durs b.elts).sum : Nat) ≤ B

theorem count_le {es : List Elt} {e : Elt} (h : e ∈ es) : e.count ≤ (durs es).length := by
  obtain ⟨a, b, rfl⟩ := List.append_of_mem h
  rw [durs_append, durs_cons]
  simp
  omega

theorem readPeriod_block {r : SL} {sc : Scope} {alloc : Nat} {b : Block} (h : BlockOk sc b) (hM : sc.max + 1 < 2 ^ 32) :
    readPeriod r sc alloc b.bytes (some 0) = readElts r sc alloc b.idx b.time b.elts := by
  have hp := durs_pos h.ne h.pos
  have hf := h.fits
  have hlo := h.lo
  have t1 := h.tlo
  have t2 := h.thi
  have hd := decode_bytes b.elts (fun e he => by
    have := count_le he
    exact ⟨by omega, h.small e he⟩)
  have l8 : (le64 b.time).length = 8 := rfl
  have l4 : (le32 b.idx).length = 4 := rfl
  have hb : b.bytes = le64 b.time ++ (le32 b.idx ++ (le32 0 ++ b.elts.flatMap fun e => le32 e.count ++ le32 e.dur)) := by
    unfold Block.bytes; simp
  have e1 : b.bytes.take 8 = le64 b.time := by rw [hb, ← l8, List.take_left]
  have e2 : (b.bytes.drop 8).take 4 = le32 b.idx := by rw [hb, ← l8, List.drop_left, ← l4, List.take_left]
  have e3 : b.bytes.drop 16 = b.elts.flatMap fun e => le32 e.count ++ le32 e.dur := by
    rw [hb, ← List.append_assoc, ← List.append_assoc]
    exact List.drop_left' (by simp [l8, l4]; rfl)
  have hlen : 16 ≤ b.bytes.length := by rw [hb]; simp [l8, l4]; have : (le32 0).length = 4 := rfl; omega
  unfold readPeriod
  rw [if_neg (by omega)]
  dsimp only
  rw [e1, e2, int64_le64 (by unfold B at *; omega) (by unfold B at *; omega), num_le32 (by omega), if_neg (by omega)]
  rw [Nat.add_zero, if_neg (by omega), e3, hd]
  have hie : b.elts.isEmpty = false := by
    cases hh : b.elts with
    | nil => exact absurd hh h.ne
    | cons _ _ => rfl
  rw [hie]
  rfl

/-! ## Writing -/

theorem writePart_spec {M : Nat} : ∀ (es : List Elt) (idx : Nat), idx < M → es ≠ [] → (∀ e ∈ es, 0 < e.count) →
    idx + (durs es).length < 2 ^ 32 →
    durs (writePart M idx es) = (durs es).take (M - idx) ∧ writePart M idx es ≠ [] ∧ (∀ e ∈ writePart M idx es, 0 < e.count) ∧
      ∀ e ∈ writePart M idx es, ∃ e' ∈ es, e'.dur = e.dur
  | [], _, _, h, _, _ => absurd rfl h
  | e :: es, idx, hi, _, hp, hb => by
    rw [durs_cons, List.length_append, List.length_replicate] at hb
    have h0 := hp e (List.mem_cons_self ..)
    unfold writePart
    rw [add32_ok (by omega)]
    by_cases hc : idx + e.count ≥ M
    · rw [if_pos hc, sub32_ok (by omega), durs_one, durs_cons, List.take_append_of_le_length (by simp; omega), List.take_replicate,
        Nat.min_eq_left (by omega)]
      refine ⟨rfl, by simp, fun x hx => ?_, fun x hx => ⟨e, by simp, ?_⟩⟩
      · rw [List.mem_singleton.1 hx]; dsimp only; omega
      · rw [List.mem_singleton.1 hx]
    · rw [if_neg hc, durs_cons, durs_cons]
      cases es with
      | nil =>
        have : writePart M (idx + e.count) [] = [] := rfl
        rw [this, durs_nil, List.append_nil, List.take_of_length_le (l := List.replicate e.count e.dur) (by simp; omega)]
        exact ⟨rfl, by simp, hp, fun x hx => ⟨x, hx, rfl⟩⟩
      | cons e' es =>
        obtain ⟨h1, h2, h3, h4⟩ := writePart_spec (M := M) (e' :: es) (idx + e.count) (by omega) (by simp)
          (fun x hx => hp x (List.mem_cons_of_mem _ hx)) (by omega)
        refine ⟨?_, by simp, fun x hx => ?_, fun x hx => ?_⟩
        · rw [h1, List.take_append, List.length_replicate, List.take_of_length_le (l := List.replicate e.count e.dur) (by simp; omega),
            show M - (idx + e.count) = M - idx - e.count by omega]
        · rcases List.mem_cons.1 hx with hx | hx
          · rw [hx]; exact h0
          · exact h3 x hx
        · rcases List.mem_cons.1 hx with hx | hx
          · exact ⟨e, by simp, by rw [hx]⟩
          · obtain ⟨y, y1, y2⟩ := h4 x hx
            exact ⟨y, List.mem_cons_of_mem _ y1, y2⟩

theorem seq_filter (max : Nat) : ∀ (ds : List Nat) (i : Nat) (t : Int), (seq i t ds).filter (fun g => g.idx ≤ max) = seq i t (ds.take (max + 1 - i))
  | [], i, t => by simp [seq]
  | d :: ds, i, t => by
    rw [seq, List.filter_cons]
    by_cases h : i ≤ max
    · rw [if_pos (by simpa using h), seq_filter max ds, show max + 1 - i = (max + 1 - (i + 1)) + 1 by omega, List.take_succ_cons]
      rfl
    · rw [if_neg (by simpa using h), seq_filter max ds, show max + 1 - (i + 1) = 0 by omega, show max + 1 - i = 0 by omega, List.take_zero, List.take_zero]
      rfl

/-- What comes before. -/
def Before (a b : Block) : Prop := a.idx + (durs a.elts).length ≤ b.idx ∧ a.time + ((durs a.elts).sum : Nat) ≤ b.time

/-- The blocks written are right for the segments `l`. -/
structure Wrote (sc : Scope) (bs : List Block) (l : List Seg) : Prop where
  segs : bs.flatMap Block.segs = l
  ok : ∀ b ∈ bs, BlockOk sc b
  order : Adj Before bs

theorem filter_gt {max : Nat} {l : List Seg} (h : ∀ g ∈ l, max < g.idx) : l.filter (fun g => g.idx ≤ max) = [] := by
  rw [List.filter_eq_nil_iff]
  intro g hg
  have := h g hg
  simp; omega

theorem nodes_gt {ns : List Node} {max : Nat} (h : ∀ n ∈ ns, max < n.key) : ∀ g ∈ ns.flatMap Node.segs, max < g.idx := by
  intro g hg
  obtain ⟨n, hn, hgn⟩ := List.mem_flatMap.1 hg
  have := h n hn
  have := seq_mem _ _ _ g hgn
  omega

theorem sum_take_le (l : List Nat) (k : Nat) : (l.take k).sum ≤ l.sum := by
  conv => rhs; rw [← List.take_append_drop k l]
  rw [List.sum_append]; omega

/-- The loop over the nodes; `z` is the node before, at whose end the current block ends. The result starts with the current
block, made longer. -/
theorem writeNodes_spec {sc : Scope} (hM : sc.max + 1 < 2 ^ 32) : ∀ (ns : List Node) (z : Node) (cur : Block),
    (∀ n ∈ ns, NodeOk n ∧ n.last + 1 < 2 ^ 32) → Adj (Link true) (z :: ns) → NodeOk z → BlockOk sc cur →
    cur.idx + (durs cur.elts).length = z.last + 1 → cur.time + ((durs cur.elts).sum : Nat) = z.fin → sc.min ≤ z.last →
    Wrote sc (writeNodes sc.max z.period cur ns) (cur.segs ++ (ns.flatMap Node.segs).filter (fun g => g.idx ≤ sc.max)) ∧
      ∃ b bs, writeNodes sc.max z.period cur ns = b :: bs ∧ b.idx = cur.idx ∧ b.time = cur.time
  | [], z, cur, _, _, _, hc, _, _, _ => by
    refine ⟨⟨by simp [writeNodes], fun b hb => ?_, by unfold writeNodes; exact adj_single _ _⟩, cur, [], rfl, rfl, rfl⟩
    unfold writeNodes at hb; rw [List.mem_singleton.1 hb]; exact hc
  | n :: ns, z, cur, hk, hl, hz, hc, hi, ht, hmin => by
    obtain ⟨hno, hnb⟩ := hk n (List.mem_cons_self ..)
    obtain ⟨l1, l2⟩ := adj_cons.1 hl
    have hnl := hno.last
    have hkl := hno.key_le
    have hnfin : n.fin = n.time + ((durs n.elts).sum : Nat) := rfl
    have hhi := hno.hi
    have hlo := hno.lo
    have hrest : ∀ m ∈ ns, n.last < m.key := by
      have := Link.trans_idx (fun m hm => (hk m hm).1) l2
      exact (List.pairwise_cons.1 this).1
    unfold writeNodes
    by_cases h1 : n.key > sc.max
    · rw [if_pos h1]
      have hgt : ∀ m ∈ n :: ns, sc.max < m.key := by
        intro m hm
        rcases List.mem_cons.1 hm with e | hm
        · rw [e]; exact h1
        · have := hrest m hm; omega
      rw [filter_gt (nodes_gt hgt), List.append_nil]
      refine ⟨⟨by simp, fun b hb => ?_, adj_single _ _⟩, cur, [], rfl, rfl, rfl⟩
      rw [List.mem_singleton.1 hb]; exact hc
    · rw [if_neg h1]
      dsimp only
      have hfilter : ((n :: ns).flatMap Node.segs).filter (fun g => g.idx ≤ sc.max) =
          seq n.key n.time ((durs n.elts).take (sc.max + 1 - n.key)) ++ (ns.flatMap Node.segs).filter (fun g => g.idx ≤ sc.max) := by
        rw [List.flatMap_cons, List.filter_append]; unfold Node.segs; rw [seq_filter]
      rw [hfilter]
      by_cases hp : n.period ≠ z.period
      · -- a new block
        simp only [if_pos hp, List.nil_append]
        have hkey : ∀ (es : List Elt) (k : Nat), durs es = (durs n.elts).take k → es ≠ [] → (∀ e ∈ es, 0 < e.count) →
            (∀ e ∈ es, e.dur < 2 ^ 32) → n.key + (durs es).length ≤ sc.max + 1 → BlockOk sc { time := n.time, idx := n.key, elts := es } := by
          intro es k he hne hpos hsm hfit
          have hst := sum_take_le (durs n.elts) k
          rw [← he] at hst
          exact ⟨hne, hpos, hsm, by have := l1.idx; dsimp only; omega, hfit, by dsimp only; omega, by dsimp only; omega⟩
        have hbef : ∀ b : Block, b.idx = n.key → b.time = n.time → Before cur b := by
          intro b e1 e2
          have := l1.idx
          have := l1.mono rfl
          unfold Before
          omega
        by_cases h2 : n.last > sc.max
        · rw [if_pos h2, add32_ok hM]
          obtain ⟨w1, w2, w3, w4⟩ := writePart_spec (M := sc.max + 1) n.elts n.key (by omega) hno.ne hno.pos (by omega)
          have hbo := hkey _ _ w1 w2 w3 (fun e he => by obtain ⟨e', q1, q2⟩ := w4 e he; rw [← q2]; exact hno.small e' q1)
            (by rw [w1, List.length_take]; omega)
          rw [filter_gt (nodes_gt (fun m hm => by have := hrest m hm; omega)), List.append_nil]
          refine ⟨⟨?_, fun b hb => ?_, ?_⟩, cur, _, rfl, rfl, rfl⟩
          · simp only [List.cons_append, List.nil_append, List.flatMap_cons, List.flatMap_nil, List.append_nil]
            unfold Block.segs
            dsimp only
            rw [w1]
          · rcases List.mem_append.1 hb with hb | hb
            · rw [List.mem_singleton.1 hb]; exact hc
            · rw [List.mem_singleton.1 hb]; exact hbo
          · exact adj_cons.2 ⟨hbef _ rfl rfl, adj_single _ _⟩
        · rw [if_neg h2]
          have hall : (durs n.elts).take (sc.max + 1 - n.key) = durs n.elts := List.take_of_length_le (by omega)
          have hbo := hkey n.elts (sc.max + 1 - n.key) hall.symm hno.ne hno.pos hno.small (by omega)
          obtain ⟨w, b, bs, e1, e2, e3⟩ := writeNodes_spec hM ns n { time := n.time, idx := n.key, elts := n.elts }
            (fun m hm => hk m (List.mem_cons_of_mem _ hm)) l2 hno hbo (by dsimp only; omega) rfl (by have := l1.idx; omega)
          rw [hall]
          refine ⟨⟨?_, fun x hx => ?_, ?_⟩, cur, _, rfl, rfl, rfl⟩
          · rw [List.flatMap_append, w.segs, List.flatMap_singleton]; rfl
          · rcases List.mem_append.1 hx with hx | hx
            · rw [List.mem_singleton.1 hx]; exact hc
            · exact w.ok x hx
          · have wo := w.order
            rw [e1] at wo ⊢
            exact adj_cons.2 ⟨hbef b e2 e3, wo⟩
      · -- the same block
        simp only [if_neg hp, List.nil_append]
        have hto : Touch z n := by
          refine Decidable.byContradiction fun hto => ?_
          have := l1.period
          rw [if_neg hto] at this
          omega
        obtain ⟨to1, to2⟩ := hto
        have hpe : z.period = n.period := by omega
        have hkey : ∀ (es : List Elt) (k : Nat), durs es = (durs n.elts).take k → es ≠ [] → (∀ e ∈ es, 0 < e.count) →
            (∀ e ∈ es, e.dur < 2 ^ 32) → n.key + (durs es).length ≤ sc.max + 1 → BlockOk sc { cur with elts := cur.elts ++ es } := by
          intro es k he hne hpos hsm hfit
          have hst := sum_take_le (durs n.elts) k
          rw [← he] at hst
          refine ⟨by simp [hne], fun e h => ?_, fun e h => ?_, hc.lo, ?_, hc.tlo, ?_⟩
          · rcases List.mem_append.1 h with h | h
            · exact hc.pos e h
            · exact hpos e h
          · rcases List.mem_append.1 h with h | h
            · exact hc.small e h
            · exact hsm e h
          · dsimp only; rw [durs_append, List.length_append]; omega
          · dsimp only; rw [durs_append, List.sum_append]; omega
        have hseg : ∀ es : List Elt, ({ cur with elts := cur.elts ++ es } : Block).segs = cur.segs ++ seq n.key n.time (durs es) := by
          intro es
          unfold Block.segs
          dsimp only
          rw [durs_append, seq_append, hi, ht, to1, to2]
        by_cases h2 : n.last > sc.max
        · rw [if_pos h2, add32_ok hM]
          obtain ⟨w1, w2, w3, w4⟩ := writePart_spec (M := sc.max + 1) n.elts n.key (by omega) hno.ne hno.pos (by omega)
          have hbo := hkey _ _ w1 w2 w3 (fun e he => by obtain ⟨e', q1, q2⟩ := w4 e he; rw [← q2]; exact hno.small e' q1)
            (by rw [w1, List.length_take]; omega)
          rw [filter_gt (nodes_gt (fun m hm => by have := hrest m hm; omega)), List.append_nil]
          refine ⟨⟨?_, fun b hb => ?_, adj_single _ _⟩, _, [], rfl, rfl, rfl⟩
          · rw [List.flatMap_singleton, hseg, w1]
          · rw [List.mem_singleton.1 hb]; exact hbo
        · rw [if_neg h2]
          have hall : (durs n.elts).take (sc.max + 1 - n.key) = durs n.elts := List.take_of_length_le (by omega)
          have hbo := hkey n.elts (sc.max + 1 - n.key) hall.symm hno.ne hno.pos hno.small (by omega)
          obtain ⟨w, b, bs, e1, e2, e3⟩ := writeNodes_spec hM ns n { cur with elts := cur.elts ++ n.elts }
            (fun m hm => hk m (List.mem_cons_of_mem _ hm)) l2 hno hbo (by dsimp only; rw [durs_append, List.length_append]; omega)
            (by dsimp only; rw [durs_append, List.sum_append]; omega) (by have := l1.idx; omega)
          rw [hall]
          rw [hseg, List.append_assoc] at w
          exact ⟨w, b, bs, e1, e2, e3⟩

/-- The segments of a range. -/
def range (sc : Scope) (l : List Seg) : List Seg := l.filter fun g => sc.min ≤ g.idx ∧ g.idx ≤ sc.max

theorem range_append (sc : Scope) (a b : List Seg) : range sc (a ++ b) = range sc a ++ range sc b := List.filter_append ..

theorem range_low {sc : Scope} {l : List Seg} (h : ∀ g ∈ l, g.idx < sc.min) : range sc l = [] := by
  unfold range
  rw [List.filter_eq_nil_iff]
  intro g hg
  have := h g hg
  simp; omega

theorem range_high {sc : Scope} {l : List Seg} (h : ∀ g ∈ l, sc.min ≤ g.idx) : range sc l = l.filter (fun g => g.idx ≤ sc.max) := by
  unfold range
  refine List.filter_congr fun g hg => ?_
  have := h g hg
  simp [this]

theorem get_split {α : Type} {l : List α} {i : Nat} {x : α} (h : l[i]? = some x) : l = l.take i ++ x :: l.drop (i + 1) := by
  rw [← drop_of_get h, List.take_append_drop]

/-- What is saved is the range. -/
theorem write_spec {s : SL} {t : Tree} {sc : Scope} (h : Inv true s) (ht : TreeOf s t) (hb : ∀ g ∈ segs s, g.idx + 1 < 2 ^ 32)
    (hsc : sc.min ≤ sc.max) (hM : sc.max + 1 < 2 ^ 32) : ∃ bs, writePeriods s t sc = .ok bs ∧ Wrote sc bs (range sc (segs s)) := by
  have hnil : Wrote sc [] [] := ⟨rfl, fun _ h => absurd h List.not_mem_nil, adj_nil _⟩
  have hnb : ∀ n ∈ s.nodes, n.last + 1 < 2 ^ 32 := by
    intro n hn
    obtain ⟨g, h1, h2, _⟩ := node_last (h.ok n hn)
    have := hb g (List.mem_flatMap.2 ⟨n, hn, List.mem_of_getLast? h1⟩)
    omega
  -- the part from a place in a node on
  have main : ∀ (it : Iter) (n : Node) (e : Elt) (x : Nat) (time : Int), iterInit s t sc.min false = .ok (it, time) →
      s.nodes[it.node]? = some n → n.elts[it.elt]? = some e → it.off < e.count → n.key ≤ x → x ≤ n.last →
      (durs n.elts).drop (x - n.key) = List.replicate (e.count - it.off) e.dur ++ durs (n.elts.drop (it.elt + 1)) →
      time = n.time + (((durs n.elts).take (x - n.key)).sum : Nat) → x = (if sc.min < n.key then n.key else sc.min) →
      (∀ m ∈ s.nodes.take it.node, m.last < sc.min) → ∃ bs, writePeriods s t sc = .ok bs ∧ Wrote sc bs (range sc (segs s)) := by
    intro it n e x time h1 h2 h3 h4 h5 h6 h7 h8 h9 h10
    have hno := h.ok n (List.mem_of_getElem? h2)
    have hnl := hno.last
    have hnbn := hnb n (List.mem_of_getElem? h2)
    have hxmin : sc.min ≤ x := by rw [h9]; split <;> omega
    have hlt : ∀ m ∈ s.nodes.drop (it.node + 1), n.last < m.key := by
      have hp := Link.trans_idx h.ok h.link
      rw [get_split h2] at hp
      exact (List.pairwise_cons.1 (List.pairwise_append.1 hp).2.1).1
    have hsegs : range sc (segs s) = (seq x time ((durs n.elts).drop (x - n.key))).filter (fun g => g.idx ≤ sc.max) ++
        ((s.nodes.drop (it.node + 1)).flatMap Node.segs).filter (fun g => g.idx ≤ sc.max) := by
      rw [segs_split h2, range_append, range_append, range_low (fun g hg => ?_), List.nil_append]
      · congr 1
        · have e1 : n.segs = seq n.key n.time ((durs n.elts).take (x - n.key)) ++ seq x time ((durs n.elts).drop (x - n.key)) := by
            unfold Node.segs
            conv => lhs; rw [← List.take_append_drop (x - n.key) (durs n.elts), seq_append]
            rw [List.length_take, Nat.min_eq_left (by omega), ← h8, show n.key + (x - n.key) = x by omega]
          rw [e1, range_append, range_low (fun g hg => ?_), List.nil_append, range_high (fun g hg => ?_)]
          · have := seq_mem _ _ _ g hg; omega
          · have := seq_mem _ _ _ g hg
            rw [List.length_take] at this
            by_cases hc : sc.min < n.key
            · rw [if_pos hc] at h9; omega
            · rw [if_neg hc] at h9; omega
        · refine range_high (fun g hg => ?_)
          obtain ⟨m, hm, hgm⟩ := List.mem_flatMap.1 hg
          have := hlt m hm
          have := seq_mem _ _ _ g hgm
          omega
      · obtain ⟨m, hm, hgm⟩ := List.mem_flatMap.1 hg
        have := h10 m hm
        have h11 := seq_mem _ _ _ g hgm
        have := (h.ok m (List.mem_of_mem_take hm)).last
        omega
    unfold writePeriods
    rw [h1]
    dsimp only
    rw [h2]
    dsimp only
    rw [h3]
    dsimp only
    by_cases hc : sc.min < n.key ∧ n.key > sc.max
    · rw [if_pos hc]
      refine ⟨[], rfl, ?_⟩
      rw [hsegs, filter_gt (fun g hg => ?_), filter_gt (fun g hg => ?_)]
      · exact hnil
      · have hh := nodes_gt (max := sc.max) (fun m hm => by have := hlt m hm; have := hno.key_le; omega) g hg
        exact hh
      · have := seq_mem _ _ _ g hg; omega
    · rw [if_neg hc, ← h9, add32_ok hM]
      have hxmax : x ≤ sc.max := by
        by_cases hd : sc.min < n.key
        · rw [if_pos hd] at h9
          have : ¬ n.key > sc.max := fun hh => hc ⟨hd, hh⟩
          omega
        · rw [if_neg hd] at h9; omega
      have hpd : durs ({ e with count := e.count - it.off } :: n.elts.drop (it.elt + 1)) = (durs n.elts).drop (x - n.key) := by
        rw [durs_cons, h7]
      have hpp : ∀ e' ∈ ({ e with count := e.count - it.off } :: n.elts.drop (it.elt + 1)), 0 < e'.count ∧ e'.dur < 2 ^ 32 := by
        intro e' he'
        rcases List.mem_cons.1 he' with he' | he'
        · rw [he']; exact ⟨by dsimp only; omega, hno.small e (List.mem_of_getElem? h3)⟩
        · exact ⟨hno.pos e' (List.mem_of_mem_drop he'), hno.small e' (List.mem_of_mem_drop he')⟩
      obtain ⟨w1, w2, w3, w4⟩ := writePart_spec (M := sc.max + 1) ({ e with count := e.count - it.off } :: n.elts.drop (it.elt + 1)) x
        (by omega) (by simp) (fun e' he' => (hpp e' he').1) (by rw [hpd, List.length_drop]; omega)
      have w5 : ∀ e' ∈ writePart (sc.max + 1) x ({ e with count := e.count - it.off } :: n.elts.drop (it.elt + 1)), e'.dur < 2 ^ 32 := by
        intro e' he'
        obtain ⟨e'', q1, q2⟩ := w4 e' he'
        rw [← q2]; exact (hpp e'' q1).2
      generalize writePart (sc.max + 1) x ({ e with count := e.count - it.off } :: n.elts.drop (it.elt + 1)) = part at w1 w2 w3 w5
      rw [hpd] at w1
      have hsum : (durs n.elts).sum = ((durs n.elts).take (x - n.key)).sum + ((durs n.elts).drop (x - n.key)).sum := by
        rw [← List.sum_append, List.take_append_drop]
      have hps : (durs part).sum ≤ ((durs n.elts).drop (x - n.key)).sum := by rw [w1]; exact sum_take_le _ _
      have hfin : n.fin = n.time + ((durs n.elts).sum : Nat) := rfl
      have hlo := hno.lo
      have hhi := hno.hi
      have hbo : BlockOk sc { time, idx := x, elts := part } :=
        ⟨w2, w3, w5, hxmin, by dsimp only; rw [w1, List.length_take]; omega, by dsimp only; omega, by dsimp only; omega⟩
      have hadj : Adj (Link true) (n :: s.nodes.drop (it.node + 1)) := by
        have := h.link
        rw [get_split h2] at this
        exact (adj_append this).2
      by_cases hcut : n.last > sc.max
      · have hw : writeNodes sc.max n.period { time, idx := x, elts := part } (s.nodes.drop (it.node + 1)) = [{ time, idx := x, elts := part }] := by
          cases hd : s.nodes.drop (it.node + 1) with
          | nil => rfl
          | cons m ms =>
            have := hlt m (by rw [hd]; simp)
            unfold writeNodes
            rw [if_pos (by omega)]
        refine ⟨_, congrArg _ hw, ?_, fun b hb => ?_, adj_single _ _⟩
        · rw [hsegs, filter_gt (l := (s.nodes.drop (it.node + 1)).flatMap Node.segs)
            (nodes_gt (fun m hm => by have := hlt m hm; omega)), List.append_nil, seq_filter, ← w1]
          simp [Block.segs]
        · rw [List.mem_singleton.1 hb]; exact hbo
      · have hall : durs part = (durs n.elts).drop (x - n.key) := by
          rw [w1]; exact List.take_of_length_le (by rw [List.length_drop]; omega)
        obtain ⟨w, _⟩ := writeNodes_spec hM (s.nodes.drop (it.node + 1)) n { time, idx := x, elts := part }
          (fun m hm => ⟨h.ok m (List.mem_of_mem_drop hm), hnb m (List.mem_of_mem_drop hm)⟩) hadj hno hbo
          (by dsimp only; rw [hall, List.length_drop]; omega) (by dsimp only; rw [hall]; omega) (by omega)
        refine ⟨_, rfl, ?_⟩
        rw [hsegs, seq_filter, ← w1]
        exact w
  by_cases hx : ∃ g ∈ segs s, g.idx = sc.min
  · obtain ⟨g, hg, e⟩ := hx
    obtain ⟨a, c, hs⟩ := List.append_of_mem hg
    obtain ⟨it, h1, h2, h3, n, el, h4, h5, h6, h7, h8, h9, h10⟩ := iterInit_at h ht hs false
    refine main it n el g.idx g.time (by rw [← e]; exact h1) h4 h5 h6 h7 h8 h9 h10 (by rw [if_neg (by omega)]; exact e) (fun m hm => ?_)
    have hp := Link.trans_idx h.ok h.link
    rw [get_split h4] at hp
    have := (List.pairwise_append.1 hp).2.2 m hm n (by simp)
    omega
  · rcases iterInit_next h ht (fun g hg e => hx ⟨g, hg, e⟩) with ⟨h1, h2⟩ | ⟨a, g, c, i, n, h1, h2, h3, h4, ⟨h5, h6⟩, h7, h8, h9⟩
    · refine ⟨[], by unfold writePeriods; rw [h1], ?_⟩
      rw [range_low h2]; exact hnil
    · obtain ⟨n', e, q1, q2, _⟩ := h8
      rw [h4] at q1
      injection q1 with q1
      subst q1
      have hno := h.ok n (List.mem_of_getElem? h4)
      have hz : n.elts = e :: n.elts.drop 1 := by rw [← drop_of_get q2, List.drop_zero]
      refine main ⟨i, 0, 0⟩ n e n.key g.time h7 h4 q2 (hno.pos e (List.mem_of_getElem? q2)) (Nat.le_refl _) hno.key_le ?_ ?_ ?_ (fun m hm => ?_)
      · rw [Nat.sub_self, List.drop_zero]
        dsimp only
        rw [Nat.sub_zero, ← durs_cons, ← hz]
      · rw [Nat.sub_self, List.take_zero, h6]; simp
      · rw [if_pos (by omega)]
      · -- the nodes before end before the range
        dsimp only at hm
        have hmo := h.ok m (List.mem_of_mem_take hm)
        obtain ⟨k, k1, k2, _⟩ := node_last hmo
        have hkm := List.mem_of_getLast? k1
        have hks : k ∈ segs s := List.mem_flatMap.2 ⟨m, List.mem_of_mem_take hm, hkm⟩
        have hp := Link.trans_idx h.ok h.link
        rw [get_split h4] at hp
        have hlt := (List.pairwise_append.1 hp).2.2 m hm n (by simp)
        rw [h1] at hks
        rcases List.mem_append.1 hks with hks | hks
        · have := h2 k hks; omega
        · exfalso
          have hso := segs_sorted h
          rw [h1] at hso
          rcases List.mem_cons.1 hks with hks | hks
          · rw [hks] at k2; omega
          · have := (List.pairwise_cons.1 (List.pairwise_append.1 hso).2.1).1 k hks; omega

end Verif.SegmentList
