import Verif.SegmentInfoInv
import Verif.SegmentListSave

/-!
# What each operation does to the flat change log
-/

namespace Verif.SegmentInfo

open Verif.Rstream (le32)
open Verif.SegmentList (Tree Scope num add32 setLast setLast_concat snoc_cases getLast_concat num_le32)

theorem sorted_snoc {l : List Elt} {e : Elt} (h : Sorted l) (he : ∀ x ∈ l, x.idx < e.idx) : Sorted (l ++ [e]) :=
  List.pairwise_append.2 ⟨h, by simp, fun x hx y hy => by simp at hy; rw [hy]; exact he x hx⟩

theorem push_spec {s s' : Track} (h : WF s.nodes) {alloc : Bool} {e : Elt} (he : ∀ x ∈ elts s.nodes, x.idx < e.idx)
    (h1 : e.idx < invalid) (h2 : e.bitrate < 2 ^ 32) (hp : push s alloc e = .ok s') :
    ∃ ns, s' = { s with nodes := ns } ∧ WF ns ∧ elts ns = elts s.nodes ++ [e] := by
  have key : ∀ ns, (∀ n ∈ ns, NodeOk n) → elts ns = elts s.nodes ++ [e] → WF ns := fun ns hn hf => by
    refine ⟨hn, by rw [hf]; exact sorted_snoc h.sorted he, ?_, ?_⟩ <;> rw [hf] <;> intro x hx <;>
      rcases List.mem_append.1 hx with hx | hx
    · exact h.idx x hx
    · simp at hx; rw [hx]; exact h1
    · exact h.bitrate x hx
    · simp at hx; rw [hx]; exact h2
  have hnew : ∀ {s'}, pushNode s alloc e = .ok s' → ∃ ns, s' = { s with nodes := ns } ∧ WF ns ∧ elts ns = elts s.nodes ++ [e] := by
    intro s' hp
    unfold pushNode at hp
    by_cases ha : alloc = true
    · rw [if_pos ha] at hp
      injection hp with hp
      have hf : elts (s.nodes ++ [{ key := e.idx, elts := [e] }]) = elts s.nodes ++ [e] := by rw [elts_append]; simp [elts]
      refine ⟨_, hp.symm, key _ ?_ hf, hf⟩
      intro n hn
      rcases List.mem_append.1 hn with hn | hn
      · exact h.node n hn
      · simp at hn; rw [hn]; exact ⟨⟨e, [], rfl, rfl⟩, by simp [maxElts]⟩
    · rw [if_neg ha] at hp; cases hp
  unfold push at hp
  cases hl : s.nodes.getLast? with
  | none => rw [hl] at hp; exact hnew hp
  | some n =>
    rw [hl] at hp
    dsimp only at hp
    by_cases hc : n.elts.length < maxElts
    · rw [if_pos hc] at hp
      injection hp with hp
      obtain ⟨l, el⟩ := getLast_concat hl
      rw [el, setLast_concat] at hp
      have hf : elts (l ++ [{ n with elts := n.elts ++ [e] }]) = elts s.nodes ++ [e] := by
        rw [el, elts_append, elts_append]; simp [elts]
      refine ⟨_, hp.symm, key _ ?_ hf, hf⟩
      intro m hm
      rcases List.mem_append.1 hm with hm | hm
      · exact h.node m (by rw [el]; simp [hm])
      · simp at hm
        obtain ⟨f, r, e1, e2⟩ := (h.node n (by rw [el]; simp)).head
        rw [hm]
        exact ⟨⟨f, r ++ [e], by simp [e1], e2⟩, by simp; omega⟩
    · rw [if_neg hc] at hp; exact hnew hp

/-- With memory an element is always stored. -/
theorem push_ok (s : Track) (e : Elt) : ∃ s', push s true e = .ok s' := by
  unfold push pushNode
  cases s.nodes.getLast? with
  | none => exact ⟨_, rfl⟩
  | some n => dsimp only; split <;> exact ⟨_, rfl⟩

/-- Freeing drops a prefix, and keeps the last element that is not after the index. -/
theorem freeLoop_spec (x : Nat) : ∀ (ns : List Node), WF ns → WF (freeLoop x ns) ∧
    ∃ a, elts ns = a ++ elts (freeLoop x ns) ∧ (a ≠ [] → ∃ f r, elts (freeLoop x ns) = f :: r ∧ f.idx ≤ x)
  | [], h => ⟨h, [], rfl, by simp⟩
  | [n], h => ⟨h, [], rfl, by simp⟩
  | n :: m :: rest, h => by
    rw [freeLoop]
    by_cases hc : x < m.key
    · rw [if_pos hc]; exact ⟨h, [], rfl, by simp⟩
    · rw [if_neg hc]
      obtain ⟨h1, a, h2, h3⟩ := freeLoop_spec x (m :: rest) h.tail
      refine ⟨h1, n.elts ++ a, by rw [elts_cons, h2, List.append_assoc], fun _ => ?_⟩
      by_cases ha : a = []
      · obtain ⟨f, r, e1, e2⟩ := (h.node m (by simp)).head
        rw [ha, List.nil_append] at h2
        rw [← h2, elts_cons, e1]
        exact ⟨f, r ++ elts rest, rfl, by omega⟩
      · exact h3 ha

theorem free_valAt {ns : List Node} (h : WF ns) {x i : Nat} (hi : x ≤ i) (b : Nat) :
    valAt b (elts (freeLoop x ns)) i = valAt b (elts ns) i := by
  obtain ⟨_, a, h2, h3⟩ := freeLoop_spec x ns h
  rw [h2]
  by_cases ha : a = []
  · rw [ha]; rfl
  · obtain ⟨f, r, e1, e2⟩ := h3 ha
    rw [e1, find_valAt (x := x) (fun _ => e2) hi]

/-! ## The query -/

theorem scan_spec (fin : Nat) : ∀ (l : List Elt), Sorted l → (scan fin l = true ↔ ∃ e ∈ l, e.idx < fin ∧ e.bitrate ≠ 0)
  | [], _ => by simp [scan]
  | e :: l, h => by
    have h1 := List.pairwise_cons.1 h
    rw [scan]
    by_cases hc : fin ≤ e.idx
    · rw [if_pos hc]
      refine ⟨(fun h => by cases h), ?_⟩
      rintro ⟨x, hx, h2, _⟩
      rcases List.mem_cons.1 hx with rfl | hx
      · omega
      · have := h1.1 x hx; omega
    · rw [if_neg hc]
      by_cases hb : e.bitrate ≠ 0
      · rw [if_pos hb]; exact ⟨fun _ => ⟨e, by simp, by omega, hb⟩, fun _ => rfl⟩
      · rw [if_neg hb, scan_spec fin l h1.2]
        constructor
        · rintro ⟨x, hx, h2⟩; exact ⟨x, by simp [hx], h2⟩
        · rintro ⟨x, hx, h2⟩
          rcases List.mem_cons.1 hx with rfl | hx
          · exact absurd h2.2 hb
          · exact ⟨x, hx, h2⟩

theorem exists_spec {s : Track} (h : WF s.nodes) {t : Tree} (ht : TreeOf s.nodes t) (h0 : s.initial = 0) {start fin : Nat}
    (hr : start < fin) : ∃ b, segExists s t start fin = .ok b ∧
      (b = true ↔ ∃ i, start ≤ i ∧ i < fin ∧ valAt 0 (elts s.nodes) i ≠ 0) := by
  unfold segExists
  rw [if_neg (by omega)]
  by_cases hn : s.nodes = []
  · have : t = .leaf := by
      cases t with
      | leaf => rfl
      | node l i r =>
        have := congrArg List.length ht
        rw [hn] at this; simp [Tree.walk] at this
    subst this
    refine ⟨false, rfl, (fun h => by cases h), ?_⟩
    rintro ⟨i, _, _, h⟩
    rw [hn] at h; simp [elts, valAt] at h
  · obtain ⟨i, n, a, f, r, rest, e1, e2, e3, e4, e5, e6, e7, e8⟩ := find_spec h ht hn start
    have hl : t ≠ .leaf := by
      rintro rfl; simp [lookup] at e1
    have hs := h.sorted
    rw [e5, List.append_assoc] at hs
    have hs2 := (List.pairwise_append.1 hs).2.1
    refine ⟨scan fin (f :: r ++ elts rest), ?_, ?_⟩
    · cases t with
      | leaf => exact absurd rfl hl
      | node l k r' =>
        dsimp only
        rw [e1, Res.bind_ok, e2]
        dsimp only
        rw [e3, e4]; rfl
    · rw [scan_spec fin _ hs2]
      have hv : ∀ j, start ≤ j → valAt 0 (elts s.nodes) j = valAt 0 (f :: (r ++ elts rest)) j := fun j hj => by
        rw [e5, List.append_assoc]; exact find_valAt e7 hj 0
      constructor
      · rintro ⟨e, he, h1, h2⟩
        have hself := valAt_self hs2 he 0
        rcases Nat.lt_or_ge start e.idx with hc | hc
        · refine ⟨e.idx, by omega, h1, ?_⟩
          rw [hv _ (by omega)]
          exact fun hz => h2 (hself.symm.trans hz)
        · refine ⟨start, Nat.le_refl _, hr, ?_⟩
          have : e = f := by
            rcases List.mem_cons.1 he with he | he
            · exact he
            · have := (e8 e he).1; omega
          subst this
          rw [hv _ (Nat.le_refl _), valAt, if_pos hc, valAt_gt _ _ _ (fun y hy => (e8 y hy).1)]
          exact h2
      · rintro ⟨j, h1, h2, h3⟩
        rw [hv j h1] at h3
        rcases valAt_mem (f :: (r ++ elts rest)) 0 j with h4 | ⟨e, he, h4, h5⟩
        · exact absurd h4 h3
        · exact ⟨e, he, by omega, by rw [← h5]; exact h3⟩

/-! ## Saving -/

theorem trim_spec (max : Nat) (l : List Elt) (h : Sorted l) : trim max l = l.filter fun e => decide (e.idx ≤ max) := by
  unfold trim
  rcases snoc_cases l with rfl | ⟨a, x, rfl⟩
  · rfl
  · have h1 := List.pairwise_append.1 h
    rw [List.reverse_append]
    simp only [List.reverse_cons, List.reverse_nil, List.nil_append, List.singleton_append, List.dropWhile_cons]
    by_cases hx : x.idx > max
    · rw [if_pos (by simpa using hx), List.filter_append]
      have := trim_spec max a h1.1
      unfold trim at this
      rw [this]
      simp; omega
    · rw [if_neg (by simpa using hx)]
      simp only [List.reverse_cons, List.reverse_reverse]
      refine (List.filter_eq_self.2 ?_).symm
      intro y hy
      rcases List.mem_append.1 hy with hy | hy
      · have := h1.2.2 y hy x (by simp); simp; omega
      · simp at hy; rw [hy]; simp; omega
termination_by l.length
decreasing_by subst_vars; simp

theorem writeNodes_spec (max : Nat) : ∀ (ls : List (List Elt)), (∀ l ∈ ls, l ≠ []) → Sorted ls.flatten →
    writeNodes max ls = ls.flatten.filter fun e => decide (e.idx ≤ max)
  | [], _, _ => rfl
  | l :: ls, h, hs => by
    rw [List.flatten_cons] at hs ⊢
    obtain ⟨s1, s2, s3⟩ := List.pairwise_append.1 hs
    rw [writeNodes, trim_spec max l s1, List.filter_append]
    by_cases hc : (l.filter fun e => decide (e.idx ≤ max)) = []
    · rw [hc]
      simp only [List.isEmpty_nil, if_true, List.nil_append]
      symm
      rw [List.filter_eq_nil_iff]
      intro y hy
      cases l with
      | nil => exact absurd rfl (h [] (by simp))
      | cons x l =>
        have h1 := s3 x (by simp) y hy
        have h2 := List.filter_eq_nil_iff.1 hc x (by simp)
        simp at h2 ⊢; omega
    · rw [if_neg (by simpa using hc), writeNodes_spec max ls (fun y hy => h y (by simp [hy])) s2]

/-- The block has the elements of the range, and the one that holds at its start. -/
theorem writeIndex_spec {s : Track} (h : WF s.nodes) {t : Tree} (ht : TreeOf s.nodes t) (sc : Scope) :
    (s.nodes = [] ∧ writeIndex s t sc = .ok none) ∨
    ∃ a f r, elts s.nodes = a ++ f :: r ∧ (∀ e ∈ a, e.idx ≤ sc.min) ∧ (a ≠ [] → f.idx ≤ sc.min) ∧ (∀ e ∈ r, sc.min < e.idx) ∧
      writeIndex s t sc = .ok (some ((f :: r).filter fun e => decide (e.idx ≤ sc.max))) := by
  by_cases hn : s.nodes = []
  · have : t = .leaf := by
      cases t with
      | leaf => rfl
      | node l i r =>
        have := congrArg List.length ht
        rw [hn] at this; simp [Tree.walk] at this
    subst this
    exact .inl ⟨hn, rfl⟩
  · right
    obtain ⟨i, n, a, f, r, rest, e1, e2, e3, e4, e5, e6, e7, e8⟩ := find_spec h ht hn sc.min
    have hl : t ≠ .leaf := by
      rintro rfl; simp [lookup] at e1
    refine ⟨a, f, r ++ elts rest, by rw [e5, List.append_assoc]; rfl, e6, e7, fun e he => (e8 e he).1, ?_⟩
    have hs := h.sorted
    rw [e5, List.append_assoc] at hs
    have hs2 := (List.pairwise_append.1 hs).2.1
    have hfl : ((f :: r) :: rest.map (·.elts)).flatten = f :: r ++ elts rest := by
      rw [List.flatten_cons, elts, List.flatMap_def]
    have hw := writeNodes_spec sc.max ((f :: r) :: rest.map (·.elts)) (by
      intro l hl
      rcases List.mem_cons.1 hl with rfl | hl
      · simp
      · obtain ⟨m, hm, rfl⟩ := List.mem_map.1 hl
        obtain ⟨z, zs, q, _⟩ := (h.node m (by rw [← e4] at hm; exact List.mem_of_mem_drop hm)).head
        rw [q]; simp) (by rw [hfl]; exact hs2)
    rw [hfl] at hw
    unfold writeIndex
    cases t with
    | leaf => exact absurd rfl hl
    | node l k r' =>
      dsimp only
      rw [e1, Res.bind_ok, e2]
      dsimp only
      rw [e3, e4, hw]; rfl

theorem decode_encode : ∀ (es : List Elt), (∀ e ∈ es, e.idx < 2 ^ 32 ∧ e.bitrate < 2 ^ 32) → decode (encode es) = es
  | [], _ => rfl
  | e :: es, h => by
    have ih := decode_encode es (fun x hx => h x (by simp [hx]))
    have h1 := num_le32 (h e (by simp)).1
    have h2 := num_le32 (h e (by simp)).2
    unfold encode at ih ⊢
    rw [List.flatMap_cons]
    show { idx := num (le32 e.idx), bitrate := num (le32 e.bitrate) } ::
      decode (es.flatMap fun e => le32 e.idx ++ le32 e.bitrate) = _
    rw [h1, h2, ih]

theorem encode_length : ∀ (es : List Elt), (encode es).length = 8 * es.length
  | [] => rfl
  | e :: es => by
    have := encode_length es
    unfold encode at this ⊢
    rw [List.flatMap_cons, List.length_append, this]
    simp [le32]; omega

/-! ## Restoring -/

theorem fill_norm (max : Nat) (keep : Bool) : ∀ (es : List Elt) (room min : Nat) (first : Bool), Sorted es →
    (∀ e ∈ es, min ≤ e.idx ∧ e.idx ≤ max ∧ e.idx < invalid) →
    ∃ m f, fill max keep room min first es = .ok (es.take room, es.drop room, m, f) ∧ ∀ e ∈ es.drop room, m ≤ e.idx
  | [], room, min, first, _, _ => ⟨min, first, by simp [fill], by simp⟩
  | e :: es, room, min, first, hs, h => by
    rw [fill]
    by_cases hr : room = 0
    · subst hr
      rw [if_pos rfl]
      exact ⟨min, first, rfl, fun x hx => (h x hx).1⟩
    · have h0 := h e (by simp)
      have h1 := List.pairwise_cons.1 hs
      rw [if_neg hr, if_neg (by omega), if_neg (by omega), if_neg (by omega)]
      have ha : add32 e.idx 1 = e.idx + 1 := by
        have := h0.2.2
        unfold invalid at this; unfold add32; rw [if_pos (by omega)]
      obtain ⟨m, f, e1, e2⟩ := fill_norm max keep es (room - 1) (add32 e.idx 1) false h1.2 (fun x hx => by
        rw [ha]; have := h1.1 x hx; have := h x (by simp [hx]); omega)
      obtain ⟨k, rfl⟩ : ∃ k, room = k + 1 := ⟨room - 1, by omega⟩
      simp only [Nat.add_sub_cancel] at e1 e2
      refine ⟨m, f, ?_, e2⟩
      simp only [Nat.add_sub_cancel]
      rw [e1]; rfl

theorem chunk_ok {es : List Elt} {k : Nat} (hk : k ≤ maxElts) {e : Elt} {a : List Elt} (h : es.take k = e :: a) :
    NodeOk { key := e.idx, elts := e :: a } :=
  ⟨⟨e, a, rfl, rfl⟩, by
    show (e :: a).length ≤ maxElts
    rw [← h, List.length_take]; omega⟩

theorem newNodes_norm (max : Nat) : ∀ (fuel : Nat) (es : List Elt) (alloc : Nat) (ns : List Node) (min : Nat) (first : Bool),
    es.length ≤ fuel → es.length ≤ alloc → Sorted es → (∀ e ∈ es, min ≤ e.idx ∧ e.idx ≤ max ∧ e.idx < invalid) →
    ∃ ns', newNodes max fuel alloc ns min first es = .ok (ns ++ ns') ∧ elts ns' = es ∧ ∀ n ∈ ns', NodeOk n
  | fuel, [], alloc, ns, min, first, _, _, _, _ => ⟨[], by cases fuel <;> simp [newNodes], rfl, by simp⟩
  | 0, _ :: _, _, _, _, _, h, _, _, _ => by simp at h
  | fuel + 1, e :: es, alloc, ns, min, first, hf, ha, hs, h => by
    rw [newNodes, if_neg (by simp at ha; omega)]
    · obtain ⟨m, f, e1, e2⟩ := fill_norm max ns.isEmpty (e :: es) maxElts min first hs h
      rw [e1, Res.bind_ok]
      have ht : (e :: es).take maxElts = e :: es.take 119 := rfl
      dsimp only
      rw [ht]
      dsimp only
      have hd : ∀ x ∈ (e :: es).drop maxElts, x ∈ e :: es := fun x hx => List.mem_of_mem_drop hx
      have hlen : ((e :: es).drop maxElts).length ≤ es.length := by rw [List.length_drop]; simp [maxElts]
      obtain ⟨ns', n1, n2, n3⟩ := newNodes_norm max fuel ((e :: es).drop maxElts) (alloc - 1)
        (ns ++ [{ key := e.idx, elts := e :: es.take 119 }]) m f (by simp at hf; omega) (by simp at ha; omega)
        (hs.sublist (List.drop_sublist _ _)) (fun x hx => ⟨e2 x hx, (h x (hd x hx)).2⟩)
      refine ⟨{ key := e.idx, elts := e :: es.take 119 } :: ns', ?_, ?_, ?_⟩
      · rw [n1, List.append_assoc]; rfl
      · rw [elts_cons, n2]
        show e :: es.take 119 ++ _ = _
        rw [← ht, List.take_append_drop]
      · intro n hn
        rcases List.mem_cons.1 hn with rfl | hn
        · exact chunk_ok (Nat.le_refl _) ht
        · exact n3 n hn
    · simp

/-- What reading adds: on an empty track everything, otherwise what is in the range. -/
def added (ns : List Node) (min : Nat) (es : List Elt) : List Elt :=
  match es with
  | [] => []
  | e :: es => if ns ≠ [] ∧ e.idx < min then es else e :: es

theorem newNodes_first (max : Nat) {es : List Elt} {alloc min : Nat} (hne : es ≠ []) (ha : es.length ≤ alloc) (hs : Sorted es)
    (h : ∀ e ∈ es, e.idx ≤ max ∧ e.idx < invalid) (ht : ∀ e ∈ es.tail, min ≤ e.idx) (ns : List Node) :
    ∃ ns', newNodes max es.length alloc ns min true es = .ok (ns ++ ns') ∧ elts ns' = added ns min es ∧ ∀ n ∈ ns', NodeOk n := by
  cases es with
  | nil => exact absurd rfl hne
  | cons e es =>
    by_cases hc : min ≤ e.idx
    · have hall : ∀ x ∈ e :: es, min ≤ x.idx ∧ x.idx ≤ max ∧ x.idx < invalid := fun x hx => by
        refine ⟨?_, h x hx⟩
        rcases List.mem_cons.1 hx with rfl | hx
        · exact hc
        · exact ht x hx
      obtain ⟨ns', e1, e2, e3⟩ := newNodes_norm max (e :: es).length (e :: es) alloc ns min true (Nat.le_refl _) ha hs hall
      refine ⟨ns', e1, ?_, e3⟩
      rw [e2, added, if_neg (by omega)]
    · have hs1 := List.pairwise_cons.1 hs
      have h0 := h e (by simp)
      have hadd : add32 e.idx 1 = e.idx + 1 := by
        have := h0.2
        unfold invalid at this; unfold add32; rw [if_pos (by omega)]
      simp only [List.length_cons]
      rw [newNodes, if_neg (by simp at ha; omega)]
      · rw [fill, if_neg (by simp [maxElts]), if_neg (by simp)]
        by_cases hn : ns = []
        · subst hn
          rw [if_neg (by simp), if_neg (by omega), hadd]
          obtain ⟨m, f, e1, e2⟩ := fill_norm max true es (maxElts - 1) (e.idx + 1) false hs1.2 (fun x hx => by
            have := hs1.1 x hx; have := h x (by simp [hx]); omega)
          rw [show ([] : List Node).isEmpty = true from rfl, e1]
          simp only [Res.bind_ok]
          have hd : ∀ x ∈ es.drop (maxElts - 1), x ∈ es := fun x hx => List.mem_of_mem_drop hx
          obtain ⟨ns', n1, n2, n3⟩ := newNodes_norm max es.length (es.drop (maxElts - 1)) (alloc - 1)
            ([] ++ [{ key := e.idx, elts := e :: es.take (maxElts - 1) }]) m f (by rw [List.length_drop]; omega)
            (by rw [List.length_drop]; simp at ha; omega)
            (hs1.2.sublist (List.drop_sublist _ _)) (fun x hx => ⟨e2 x hx, h x (by simp [hd x hx])⟩)
          refine ⟨{ key := e.idx, elts := e :: es.take (maxElts - 1) } :: ns', ?_, ?_, ?_⟩
          · rw [n1, List.append_assoc]; rfl
          · rw [elts_cons, n2, added, if_neg (by simp)]
            simp
          · intro n hn
            rcases List.mem_cons.1 hn with rfl | hn
            · exact ⟨⟨e, _, rfl, rfl⟩, by simp [maxElts, List.length_take]; omega⟩
            · exact n3 n hn
        · have hk : ns.isEmpty = false := by cases ns with
            | nil => exact absurd rfl hn
            | cons => rfl
          rw [hk, if_pos (by simp; omega)]
          have hall : ∀ x ∈ es, min ≤ x.idx ∧ x.idx ≤ max ∧ x.idx < invalid := fun x hx => ⟨ht x hx, h x (by simp [hx])⟩
          obtain ⟨m, f, e1, e2⟩ := fill_norm max false es maxElts min false hs1.2 hall
          rw [e1, Res.bind_ok]
          dsimp only
          have hd : ∀ x ∈ es.drop maxElts, x ∈ es := fun x hx => List.mem_of_mem_drop hx
          have hnn : ∀ ns2, ∃ ns', newNodes max es.length (alloc - 1) ns2 m f (es.drop maxElts) = .ok (ns2 ++ ns') ∧
              elts ns' = es.drop maxElts ∧ ∀ n ∈ ns', NodeOk n := fun ns2 =>
            newNodes_norm max es.length (es.drop maxElts) (alloc - 1) ns2 m f (by rw [List.length_drop]; omega)
              (by rw [List.length_drop]; simp at ha; omega)
              (hs1.2.sublist (List.drop_sublist _ _)) (fun x hx => ⟨e2 x hx, (hall x (hd x hx)).2⟩)
          have hres : added ns min (e :: es) = es := by rw [added, if_pos ⟨hn, by omega⟩]
          cases htk : es.take maxElts with
          | nil =>
            have hnil : es = [] := by
              cases es with
              | nil => rfl
              | cons x l => simp [maxElts] at htk
            subst hnil
            obtain ⟨ns', n1, n2, n3⟩ := hnn ns
            exact ⟨ns', n1, by rw [n2, hres]; rfl, n3⟩
          | cons x l =>
            obtain ⟨ns', n1, n2, n3⟩ := hnn (ns ++ [{ key := x.idx, elts := x :: l }])
            refine ⟨{ key := x.idx, elts := x :: l } :: ns', ?_, ?_, ?_⟩
            · dsimp only
              rw [n1, List.append_assoc]; rfl
            · rw [elts_cons, n2, hres]
              show x :: l ++ _ = _
              rw [← htk, List.take_append_drop]
            · intro n hn
              rcases List.mem_cons.1 hn with rfl | hn
              · exact chunk_ok (Nat.le_refl _) htk
              · exact n3 n hn
      · simp

theorem elts_last {ns : List Node} (h : ∀ n ∈ ns, NodeOk n) {n : Node} (hn : ns.getLast? = some n) :
    ∃ e, n.elts.getLast? = some e ∧ (elts ns).getLast? = some e := by
  obtain ⟨l, rfl⟩ := getLast_concat hn
  obtain ⟨e, r, e1, _⟩ := (h n (by simp)).head
  cases hl : n.elts.getLast? with
  | none => rw [e1] at hl; simp at hl
  | some x =>
    refine ⟨x, rfl, ?_⟩
    rw [elts_append]
    simp [elts, List.getLast?_append, hl]

/-- Reading a block that was saved. -/
theorem readElts_spec {s : Track} (h : WF s.nodes) {sc : Scope} {alloc : Nat} {es : List Elt} (hne : es ≠ [])
    (ha : es.length ≤ alloc) (hlast : ∀ e ∈ elts s.nodes, e.idx < sc.min) (hs : Sorted es)
    (hes : ∀ e ∈ es, e.idx ≤ sc.max ∧ e.idx < invalid ∧ e.bitrate < 2 ^ 32) (ht : ∀ e ∈ es.tail, sc.min ≤ e.idx) :
    ∃ ns e, readElts s sc alloc es = .ok { s with nodes := ns, lastBitrate := e.bitrate * 100 % 2 ^ 32 } ∧ WF ns ∧
      elts ns = elts s.nodes ++ added s.nodes sc.min es ∧ (elts ns).getLast? = some e := by
  -- the rest, given the nodes that were made
  have fin : ∀ ns, (∀ n ∈ ns, NodeOk n) → elts ns = elts s.nodes ++ added s.nodes sc.min es → ns ≠ [] →
      ∃ e, setBitrate s ns = .ok { s with nodes := ns, lastBitrate := e.bitrate * 100 % 2 ^ 32 } ∧ WF ns ∧ (elts ns).getLast? = some e := by
    intro ns hn hf hnn
    have hadd : ∀ x ∈ added s.nodes sc.min es, x ∈ es := by
      intro x hx
      cases es with
      | nil => exact hx
      | cons e es =>
        rw [added] at hx
        split at hx
        · simp [hx]
        · exact hx
    have hsub : (added s.nodes sc.min es).Sublist es := by
      cases es with
      | nil => exact List.Sublist.refl _
      | cons e es =>
        rw [added]
        split
        · exact List.sublist_cons_self _ _
        · exact List.Sublist.refl _
    cases hl : ns.getLast? with
    | none => exact absurd (List.getLast?_eq_none_iff.1 hl) hnn
    | some n =>
      obtain ⟨e, e1, e2⟩ := elts_last hn hl
      refine ⟨e, by unfold setBitrate; rw [hl]; dsimp only; rw [e1], ⟨hn, ?_, ?_, ?_⟩, e2⟩
      · rw [hf]
        refine List.pairwise_append.2 ⟨h.sorted, hs.sublist hsub, ?_⟩
        intro x hx y hy
        have hx' := hlast x hx
        have : sc.min ≤ y.idx := by
          cases es with
          | nil => exact absurd rfl hne
          | cons e es =>
            rw [added] at hy
            split at hy
            · exact ht y hy
            · rename_i hc
              rcases List.mem_cons.1 hy with rfl | hy
              · have : s.nodes ≠ [] := by
                  intro hz; rw [hz] at hx; simp [elts] at hx
                exact Nat.le_of_not_lt fun hlt => hc ⟨this, hlt⟩
              · exact ht y hy
        omega
      · rw [hf]; intro x hx
        rcases List.mem_append.1 hx with hx | hx
        · exact h.idx x hx
        · exact (hes x (hadd x hx)).2.1
      · rw [hf]; intro x hx
        rcases List.mem_append.1 hx with hx | hx
        · exact h.bitrate x hx
        · exact (hes x (hadd x hx)).2.2
  unfold readElts
  cases hl : s.nodes.getLast? with
  | none =>
    have hnil := List.getLast?_eq_none_iff.1 hl
    rw [show readLast s sc es = .ok (s.nodes, es, sc.min, true) by unfold readLast; rw [hl], Res.bind_ok]
    dsimp only
    obtain ⟨ns', n1, n2, n3⟩ := newNodes_first sc.max hne ha hs (fun e he => ⟨(hes e he).1, (hes e he).2.1⟩) ht s.nodes
    rw [n1, Res.bind_ok]
    have hf : elts (s.nodes ++ ns') = elts s.nodes ++ added s.nodes sc.min es := by rw [elts_append, n2]
    obtain ⟨e, f1, f2, f3⟩ := fin (s.nodes ++ ns') (by rw [hnil]; simpa using n3) hf (by
      rw [hnil]
      intro hz
      simp at hz
      rw [hz, added.eq_def, hnil] at n2
      cases es with
      | nil => exact hne rfl
      | cons e es => simp [elts] at n2)
    exact ⟨_, e, f1, f2, hf, f3⟩
  | some n =>
    obtain ⟨l, el⟩ := getLast_concat hl
    obtain ⟨d, d1, d2⟩ := elts_last h.node hl
    have hnn : s.nodes ≠ [] := by rw [el]; simp
    have hdm := hlast d (List.mem_of_getLast? d2)
    have hno := h.node n (by rw [el]; simp)
    have hroom := hno.room
    -- what the last node gets
    have hfill : ∃ p q m f, fill sc.max false (maxElts - n.elts.length) sc.min true es = .ok (p, q, m, f) ∧
        p.length ≤ maxElts - n.elts.length ∧
        ((p ++ q = added s.nodes sc.min es ∧ ∀ x ∈ q, m ≤ x.idx) ∨ (p = [] ∧ q = es ∧ m = sc.min ∧ f = true)) := by
      cases es with
      | nil => exact absurd rfl hne
      | cons e es =>
        have hs1 := List.pairwise_cons.1 hs
        by_cases hr : maxElts - n.elts.length = 0
        · rw [fill, if_pos hr]; exact ⟨[], _, _, _, rfl, by simp, .inr ⟨rfl, rfl, rfl, rfl⟩⟩
        · by_cases hc : e.idx < sc.min
          · rw [fill, if_neg hr, if_neg (by simp), if_pos ⟨hc, rfl⟩]
            obtain ⟨m, f, e1, e2⟩ := fill_norm sc.max false es (maxElts - n.elts.length) sc.min false hs1.2 (fun x hx =>
              ⟨ht x hx, (hes x (by simp [hx])).1, (hes x (by simp [hx])).2.1⟩)
            refine ⟨_, _, m, f, e1, by rw [List.length_take]; omega, .inl ⟨?_, e2⟩⟩
            rw [List.take_append_drop, added, if_pos ⟨hnn, hc⟩]
          · obtain ⟨m, f, e1, e2⟩ := fill_norm sc.max false (e :: es) (maxElts - n.elts.length) sc.min true hs (fun x hx => by
              refine ⟨?_, (hes x hx).1, (hes x hx).2.1⟩
              rcases List.mem_cons.1 hx with rfl | hx
              · omega
              · exact ht x hx)
            refine ⟨_, _, m, f, e1, by rw [List.length_take]; omega, .inl ⟨?_, e2⟩⟩
            rw [List.take_append_drop, added, if_neg (by omega)]
    obtain ⟨p, q, m, f, e1, e2, e3⟩ := hfill
    rw [show readLast s sc es = .ok (setLast s.nodes { n with elts := n.elts ++ p }, q, m, f) by
      unfold readLast; rw [hl]; dsimp only; rw [d1]; dsimp only; rw [if_neg (by omega), e1]; rfl, Res.bind_ok]
    dsimp only
    rw [el, setLast_concat]
    have hok : ∀ x ∈ l ++ [{ n with elts := n.elts ++ p }], NodeOk x := by
      intro x hx
      rcases List.mem_append.1 hx with hx | hx
      · exact h.node x (by rw [el]; simp [hx])
      · simp at hx
        obtain ⟨z, zs, q1, q2⟩ := hno.head
        rw [hx]
        exact ⟨⟨z, zs ++ p, by simp [q1], q2⟩, by simp; omega⟩
    have hflat : elts (l ++ [{ n with elts := n.elts ++ p }]) = elts s.nodes ++ p := by
      rw [el, elts_append, elts_append]; simp [elts]
    have hqsub : q.Sublist es := by
      rcases e3 with ⟨e3, _⟩ | ⟨_, e3, _⟩
      · have : q.Sublist (added s.nodes sc.min es) := by rw [← e3]; exact List.sublist_append_right _ _
        refine this.trans ?_
        cases es with
        | nil => exact List.Sublist.refl _
        | cons e es =>
          rw [added]
          split
          · exact List.sublist_cons_self _ _
          · exact List.Sublist.refl _
      · rw [e3]; exact List.Sublist.refl _
    have hmk : ∃ ns', newNodes sc.max q.length alloc (l ++ [{ n with elts := n.elts ++ p }]) m f q =
        .ok ((l ++ [{ n with elts := n.elts ++ p }]) ++ ns') ∧ p ++ elts ns' = added s.nodes sc.min es ∧ ∀ n ∈ ns', NodeOk n := by
      rcases e3 with ⟨e3, e4⟩ | ⟨e3, e4, e5, e6⟩
      · obtain ⟨ns', n1, n2, n3⟩ := newNodes_norm sc.max q.length q alloc (l ++ [{ n with elts := n.elts ++ p }]) m f (Nat.le_refl _)
          (Nat.le_trans hqsub.length_le ha) (hs.sublist hqsub) (fun x hx =>
            ⟨e4 x hx, (hes x (hqsub.subset hx)).1, (hes x (hqsub.subset hx)).2.1⟩)
        exact ⟨ns', n1, by rw [n2, e3], n3⟩
      · subst e3; subst e4; subst e5; subst e6
        obtain ⟨ns', n1, n2, n3⟩ := newNodes_first sc.max hne ha hs (fun e he => ⟨(hes e he).1, (hes e he).2.1⟩) ht
          (l ++ [{ n with elts := n.elts ++ [] }])
        refine ⟨ns', n1, ?_, n3⟩
        rw [List.nil_append, n2]
        cases q with
        | nil => rfl
        | cons z zs => rw [added, added, el]; simp
    obtain ⟨ns', n1, n2, n3⟩ := hmk
    rw [n1, Res.bind_ok]
    have hf : elts ((l ++ [{ n with elts := n.elts ++ p }]) ++ ns') = elts s.nodes ++ added s.nodes sc.min es := by
      rw [elts_append, hflat, List.append_assoc, n2]
    obtain ⟨e, f1, f2, f3⟩ := fin _ (by
      intro x hx
      rcases List.mem_append.1 hx with hx | hx
      · exact hok x hx
      · exact n3 x hx) hf (by simp)
    rw [← el]
    exact ⟨_, e, f1, f2, hf, f3⟩

end Verif.SegmentInfo
