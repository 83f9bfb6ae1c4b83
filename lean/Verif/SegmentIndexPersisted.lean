import Verif.SegmentIndexReady

/-!
# The outcome of a write
-/

namespace Verif.SegmentIndex

/-- The segments of a write are one bucket, and no outcome was reported for it. -/
structure Fresh (B : Nat) (s : St) (a b : Nat) : Prop where
  pos : 0 < B
  bucket : ∃ id, a = id * B ∧ b = (id + 1) * B
  le : b ≤ s.next
  new : ∀ ok, .persisted a b ok ∉ s.log

theorem Fresh.unreported {B n0 : Nat} {s : St} {a b : Nat} (h : Fresh B s a b) (hl : Logs B n0 s) {k : Nat} (h1 : a ≤ k) (h2 : k < b) (ok : Bool) :
    ¬ Reported s.log ok k := by
  rintro ⟨a', b', h3, h4, h5⟩
  obtain ⟨_, id', rfl, rfl⟩ := hl.range a' b' ok h3
  obtain ⟨id, rfl, rfl⟩ := h.bucket
  have e1 := Nat.div_eq_of_lt_le h1 h2
  have e2 := Nat.div_eq_of_lt_le h4 h5
  rw [e1] at e2
  subst e2
  exact h.new ok h3

theorem Inv.perm {B n0 : Nat} {s : St} {l l' : List Nat} (h : Inv B n0 s l) (hp : l'.Perm l) : Inv B n0 s l' :=
  ⟨h.rows, h.logs, h.held, ⟨(hp.append_left _).trans h.nums.perm, by rw [h.nums.count]; simp [hp.length_eq]⟩⟩

/-- An index whose write is over. -/
def upd (ok : Bool) (y : Idx) : Idx := { y with persist := if ok then .ok else .error, snap := none }

/-- The state after the flags of the range are set. -/
def setSt (s : St) (a b : Nat) (ok : Bool) (p r q : List Idx) : St :=
  { emit s (.persisted a b ok) with
    all := p ++ r.map (upd ok) ++ q
    pending := keysOf p (· == .none) ++ keysOf q (· == .none)
    done := keysOf p (· != .none) ++ r.map (·.key) ++ keysOf q (· != .none) }

/-- The indexes of a range. -/
structure Split (s : St) (a b : Nat) (p r q : List Idx) : Prop where
  all : s.all = p ++ r ++ q
  before : ∀ y ∈ p, y.key < a
  within : ∀ y ∈ r, a ≤ y.key ∧ y.key < b
  after : ∀ y ∈ q, b ≤ y.key

theorem setSt_mem {s : St} {a b : Nat} {ok : Bool} {p r q : List Idx} {y : Idx} (hy : y ∈ (setSt s a b ok p r q).all) :
    y ∈ p ∨ (∃ x ∈ r, y = upd ok x) ∨ y ∈ q := by
  have hy : y ∈ p ++ r.map (upd ok) ++ q := hy
  rcases List.mem_append.1 hy with hy | hy
  · rcases List.mem_append.1 hy with hy | hy
    · exact .inl hy
    · obtain ⟨x, hx, e⟩ := List.mem_map.1 hy
      exact .inr (.inl ⟨x, hx, e.symm⟩)
  · exact .inr (.inr hy)

theorem setSt_reported {s : St} {a b : Nat} {ok : Bool} {p r q : List Idx} {k : Nat} (h1 : a ≤ k) (h2 : k < b) :
    Reported (setSt s a b ok p r q).log ok k := ⟨a, b, List.mem_append_right _ (List.mem_singleton.2 rfl), h1, h2⟩

theorem keysOf_upd (ok : Bool) (r : List Idx) : keysOf (r.map (upd ok)) (· == .none) = [] ∧ keysOf (r.map (upd ok)) (· != .none) = r.map (·.key) := by
  induction r with
  | nil => exact ⟨rfl, rfl⟩
  | cons x r ih =>
    rw [List.map_cons, keysOf_cons, keysOf_cons, ih.1, ih.2]
    cases ok <;> exact ⟨rfl, rfl⟩

theorem ids_upd (ok : Bool) (r : List Idx) : ids (r.map (upd ok)) = [] := by
  induction r with
  | nil => rfl
  | cons x r ih => rw [List.map_cons, ids_cons, ih]; rfl

theorem keys_upd (ok : Bool) (r : List Idx) : (r.map (upd ok)).map (·.key) = r.map (·.key) := by
  rw [List.map_map]; rfl

theorem setSt_keys (s : St) (a b : Nat) (ok : Bool) (p r q : List Idx) (ha : s.all = p ++ r ++ q) :
    (setSt s a b ok p r q).all.map (·.key) = s.all.map (·.key) := by
  show (p ++ r.map (upd ok) ++ q).map (·.key) = _
  rw [ha, List.map_append, List.map_append, keys_upd, List.map_append, List.map_append]

theorem sorted_keys {l : List Idx} : l.Pairwise (fun x y => x.key < y.key) ↔ (l.map (·.key)).Pairwise (· < ·) := by
  rw [List.pairwise_map]

theorem setSt_inv {B n0 : Nat} {s : St} {a b : Nat} {ok : Bool} {p r q : List Idx} (h : Inv B n0 s []) (hf : Fresh B s a b) (hs : Split s a b p r q) :
    Inv B n0 (setSt s a b ok p r q) (ids r) := by
  have h1 : Inv B n0 (emit s (.persisted a b ok)) [] := h.emit trivial trivial fun a' b' ok' e => by
    injection e with e1 e2 _; subst e1; subst e2; exact ⟨hf.le, hf.bucket⟩
  have hmem : ∀ y, y ∈ p ∨ y ∈ r ∨ y ∈ q → y ∈ s.all := by
    intro y hy
    rw [hs.all]
    simp only [List.mem_append]
    rcases hy with hy | hy | hy <;> simp [hy]
  refine ⟨⟨?_, fun y hy => ?_, ?_, ?_, fun hm i hc hns => ?_, fun hm y hy => ?_⟩,
    ⟨h1.logs.good, h1.logs.range, h1.logs.ready, h1.logs.all, h1.logs.low, h1.logs.last⟩,
    ⟨h1.held.write, h1.held.pend, h1.held.mode, h1.held.pendWrite⟩, ⟨?_, ?_⟩⟩
  · rw [sorted_keys, setSt_keys s a b ok p r q hs.all, ← sorted_keys]; exact h.rows.sorted
  · rcases setSt_mem hy with hy | ⟨x, hx, rfl⟩ | hy
    · exact h1.rows.row y (hmem y (.inl hy))
    · have hr := h1.rows.row x (hmem x (.inr (.inl hx)))
      obtain ⟨w1, w2⟩ := hs.within x hx
      refine ⟨hr.low, fun e => ?_, fun e => ?_, hr.future, hr.gone, (fun _ e => by cases e), (fun _ e => by cases e), (fun _ e => by cases e), (fun _ e => by cases e),
        (fun _ e => by cases e)⟩
      · cases ok with
        | true => exact setSt_reported w1 w2
        | false => cases e
      · cases ok with
        | true => cases e
        | false => exact setSt_reported w1 w2
    · exact h1.rows.row y (hmem y (.inr (.inr hy)))
  · show _ = keysOf (p ++ r.map (upd ok) ++ q) _
    rw [keysOf_append, keysOf_append, (keysOf_upd ok r).1, List.append_nil]; rfl
  · show _ = keysOf (p ++ r.map (upd ok) ++ q) _
    rw [keysOf_append, keysOf_append, (keysOf_upd ok r).2]; rfl
  · obtain ⟨x, hx, h2, h3⟩ := h1.rows.unsettled hm i hc hns
    have hx : x ∈ s.all := hx
    rw [hs.all] at hx
    refine ⟨x, ?_, h2, h3⟩
    show x ∈ p ++ r.map (upd ok) ++ q
    rcases List.mem_append.1 hx with hx | hx
    · rcases List.mem_append.1 hx with hx | hx
      · simp [hx]
      · obtain ⟨w1, w2⟩ := hs.within x hx
        exact absurd (.inl ⟨ok, setSt_reported (h2 ▸ w1) (h2 ▸ w2)⟩) hns
    · simp [hx]
  · rcases setSt_mem hy with hy | ⟨x, hx, rfl⟩ | hy
    · exact h1.rows.off hm y (hmem y (.inl hy))
    · rfl
    · exact h1.rows.off hm y (hmem y (.inr (.inr hy)))
  · refine List.Perm.trans ?_ h.nums.perm
    show (s.closed ++ (ids (p ++ r.map (upd ok) ++ q) ++ wid s.write ++ pid s.pend) ++ ids r).Perm (s.closed ++ (ids s.all ++ wid s.write ++ pid s.pend) ++ [])
    rw [hs.all, ids_append, ids_append, ids_append, ids_append, ids_upd]
    refine List.perm_iff_count.2 fun a => ?_
    simp only [List.count_append, List.count_nil]
    omega
  · have hc := h.nums.count
    show s.snapshots = (ids (p ++ r.map (upd ok) ++ q) ++ wid s.write ++ pid s.pend ++ ids r).length
    rw [hc]
    unfold live
    rw [hs.all, ids_append, ids_append, ids_append, ids_append, ids_upd]
    simp only [List.length_append, List.length_nil]
    omega

theorem setSt_ex {B n0 : Nat} {s : St} {a b : Nat} {ok : Bool} {p r q : List Idx} {t : Nat} (h : Inv B n0 s []) (hE : Ex t s) (hf : Fresh B s a b)
    (hs : Split s a b p r q) : Ex t (setSt s a b ok p r q) := by
  refine ⟨fun y hy hr => ?_, hE.trunc.snoc trivial, fun h0 => let ⟨w, hw⟩ := hE.lost h0; ⟨w, List.mem_append_left _ hw⟩, hE.honest.snoc trivial⟩
  have hold : Reported s.log true y.key ∨ (ok = true ∧ a ≤ y.key ∧ y.key < b) := by
    obtain ⟨a', b', h1, h2⟩ := hr
    rcases List.mem_append.1 h1 with h1 | h1
    · exact .inl ⟨a', b', h1, h2⟩
    · injection List.mem_singleton.1 h1 with e1 e2 e3
      subst e1; subst e2
      exact .inr ⟨e3.symm, h2⟩
  rcases setSt_mem hy with hy | ⟨x, hx, rfl⟩ | hy
  · rcases hold with hold | ⟨_, h1, _⟩
    · exact hE.flag y (by rw [hs.all]; simp [hy]) hold
    · have := hs.before y hy; omega
  · obtain ⟨w1, w2⟩ := hs.within x hx
    rcases hold with hold | ⟨h1, _⟩
    · exact absurd hold (hf.unreported h.logs w1 w2 true)
    · subst h1; rfl
  · rcases hold with hold | ⟨_, _, h1⟩
    · exact hE.flag y (by rw [hs.all]; simp [hy]) hold
    · have := hs.after y hy; omega

/-! ## The range -/

theorem range_split {s : St} {a b : Nat} (hs : s.all.Pairwise fun x y => x.key < y.key) :
    Split s a b (s.all.takeWhile fun y => decide (y.key < a)) ((first s.all a).takeWhile fun y => decide (y.key < b))
      ((first s.all a).dropWhile fun y => decide (y.key < b)) := by
  have key : ∀ (c : Nat) (l : List Idx), l.Pairwise (fun x y => x.key < y.key) → ∀ y ∈ l.dropWhile (fun y => decide (y.key < c)), c ≤ y.key := by
    intro c l
    induction l with
    | nil => intro _ y hy; cases hy
    | cons z l ih =>
      intro hl y hy
      obtain ⟨h1, h2⟩ := List.pairwise_cons.1 hl
      rw [List.dropWhile_cons] at hy
      split at hy
      · exact ih h2 y hy
      · rename_i hz
        have hz : ¬ z.key < c := by simpa using hz
        rcases List.mem_cons.1 hy with rfl | hy
        · omega
        · have := h1 y hy; omega
  have hfs : (first s.all a).Pairwise fun x y => x.key < y.key := hs.sublist (List.dropWhile_sublist _)
  refine ⟨?_, fun y hy => by simpa using takeWhile_mem hy, fun y hy => ⟨?_, by simpa using takeWhile_mem hy⟩, key b _ hfs⟩
  · rw [List.append_assoc, List.takeWhile_append_dropWhile]
    exact (List.takeWhile_append_dropWhile).symm
  · exact key a _ hs y ((List.takeWhile_sublist _).subset hy)

theorem range_none {B n0 : Nat} {s : St} {a b : Nat} {p r q : List Idx} (h : Inv B n0 s []) (hf : Fresh B s a b) (hs : Split s a b p r q) :
    ∀ y ∈ r, y.persist = .none := by
  intro y hy
  obtain ⟨w1, w2⟩ := hs.within y hy
  have hrow := h.rows.row y (by rw [hs.all]; simp [hy])
  cases hp : y.persist with
  | none => rfl
  | ok => exact absurd (hrow.ok hp) (hf.unreported h.logs w1 w2 _)
  | error => exact absurd (hrow.error hp) (hf.unreported h.logs w1 w2 _)

theorem keysOf_all {r : List Idx} (h : ∀ y ∈ r, y.persist = .none) : keysOf r (· == .none) = r.map (·.key) ∧ keysOf r (· != .none) = [] := by
  induction r with
  | nil => exact ⟨rfl, rfl⟩
  | cons x r ih =>
    have h1 := ih fun y hy => h y (by simp [hy])
    rw [keysOf_cons, keysOf_cons, h1.1, h1.2, h x (by simp)]
    exact ⟨rfl, rfl⟩

theorem takeWhile_append_cons {p : Nat → Bool} {l l' : List Nat} {x : Nat} (h : ∀ y ∈ l, p y = true) (hx : p x = false) :
    (l ++ x :: l').takeWhile p = l := by
  induction l with
  | nil => simp [hx]
  | cons y l ih =>
    rw [List.cons_append, List.takeWhile_cons_of_pos (h y (by simp)), ih fun y hy => h y (by simp [hy])]

theorem insertDone_eq {d1 d2 m : List Nat} {k : Nat} (h1 : ∀ j ∈ d1, j < k) (h2 : ∀ j ∈ d2, k ≤ j) : insertDone (d1 ++ d2) m k = d1 ++ m ++ d2 := by
  have hd : (d2.reverse ++ d1.reverse).dropWhile (fun j => decide (k ≤ j)) = d1.reverse := by
    rw [List.dropWhile_append_of_pos fun j hj => by simpa using h2 j (by simpa using hj)]
    cases hr : d1.reverse with
    | nil => rfl
    | cons j l =>
      refine List.dropWhile_cons_of_neg ?_
      have : j ∈ d1 := by rw [← List.mem_reverse, hr]; simp
      have := h1 j this
      simpa using this
  have ht : (d2.reverse ++ d1.reverse).takeWhile (fun j => decide (k ≤ j)) = d2.reverse := by
    have := List.takeWhile_append_dropWhile (p := fun j => decide (k ≤ j)) (l := d2.reverse ++ d1.reverse)
    rw [hd] at this
    exact List.append_cancel_right this
  unfold insertDone
  rw [List.reverse_append, hd, ht, List.reverse_reverse, List.reverse_reverse]

/-! ## The snapshot that is left -/

/-- The last snapshot. -/
def lastOf : List Idx → Option Snap → Option Snap
  | [], sn => sn
  | x :: xs, sn => lastOf xs (x.snap.or sn)

theorem lastOf_mem : ∀ (xs : List Idx) (sn : Option Snap) (r : Snap), lastOf xs sn = some r → sn = some r ∨ ∃ x ∈ xs, x.snap = some r
  | [], _, _, h => .inl h
  | x :: xs, sn, r, h => by
    rcases lastOf_mem xs _ r h with h | ⟨y, hy, h⟩
    · cases hx : x.snap with
      | none => rw [hx] at h; exact .inl h
      | some z => rw [hx] at h; exact .inr ⟨x, by simp, by rw [hx]; exact h⟩
    · exact .inr ⟨y, by simp [hy], h⟩

theorem closeSnap_free (s : St) (sn : Snap) (io : Bool) : closeSnap s sn .free io = closeFrames s sn.fs .free := by
  unfold closeSnap
  cases s.mode <;> rfl

theorem lastSnap_inv {B n0 : Nat} {A : List Idx} {P D : List Nat} {lim : List Nat} : ∀ (xs : List Idx) (sn : Option Snap) (s : St),
    Inv B n0 { s with all := A, pending := P, done := D } (pid sn ++ ids xs ++ lim) →
    ∃ c n, lastSnap xs sn s = .ok (lastOf xs sn, { s with closed := c, snapshots := n }) ∧
      Inv B n0 { s with all := A, pending := P, done := D, closed := c, snapshots := n } (pid (lastOf xs sn) ++ lim)
  | [], sn, s, h => ⟨s.closed, s.snapshots, rfl, h.perm (by rw [show ids [] = [] from rfl, List.append_nil]; exact List.Perm.refl _)⟩
  | x :: xs, sn, s, h => by
    unfold lastSnap lastOf
    rw [ids_cons] at h
    cases hx : x.snap with
    | none =>
      rw [hx] at h
      exact lastSnap_inv xs sn s h
    | some z =>
      rw [hx] at h
      dsimp only
      cases sn with
      | none => exact lastSnap_inv xs (some z) s h
      | some y =>
        dsimp only
        rw [closeSnap_free, closeFrames_eq (by
          have h' : Nums { s with all := A, pending := P, done := D } (y.fs.id :: (pid (some z) ++ ids xs ++ lim)) := h.nums
          exact h'.fresh), Res.bind_ok]
        have h1 := closedSt_inv (a := .free) (fs := y.fs) (lim := pid (some z) ++ ids xs ++ lim) h (fun h => absurd rfl h)
        have h2 : Inv B n0 { closedSt s y.fs .free with all := A, pending := P, done := D } (pid (some z) ++ ids xs ++ lim) := h1
        obtain ⟨c, n, e, h3⟩ := lastSnap_inv xs (some z) (closedSt s y.fs .free) h2
        have hcl : closedSt s y.fs .free = { s with closed := y.fs.id :: s.closed, snapshots := s.snapshots - 1 } := by
          unfold closedSt
          rw [if_pos rfl, List.append_nil]
        rw [hcl] at e h3
        refine ⟨c, n, ?_, h3⟩
        rw [hcl]
        exact e

theorem handOver_inv {B n0 : Nat} {s : St} {sn : Snap} {prev : Option Nat} {b : Nat} {ok io : Bool} (h : Inv B n0 s [sn.fs.id]) (hm : s.mode ≠ .off)
    (hmax : sn.fs.max = sn.max) (hlt : sn.max < s.next) (htab : ∀ tb, sn.fs.table = some tb → .ready sn.max true tb ∈ s.log)
    (hfail : ok = false → sn.max < b → Reported s.log false sn.max)
    (hnone : prev = none → ∀ i, i ≤ sn.max → Completed s.log i → Settled s.log i)
    (hsome : ∀ k, prev = some k → k ≤ sn.max ∧ (∃ y ∈ s.all, y.key = k ∧ y.persist = .none) ∧ ∀ i, k < i → i ≤ sn.max → Completed s.log i → Settled s.log i) :
    ∃ s', handOver s sn prev b ok io = .ok s' ∧ Inv B n0 s' [] ∧ Kept s s' ∧ s'.all.map (·.key) = s.all.map (·.key) ∧ ∀ t, Ex t s → Ex t s' := by
  unfold handOver
  by_cases hc : ok = false ∧ ¬ sn.max ≥ b
  · rw [if_pos hc]
    obtain ⟨s', e, h1, h2⟩ := closeSnap_inv (io := io) (a := .ack) h (fun _ tb ht => by
      rw [hmax]; exact ⟨htab tb ht, .inr (hfail hc.1 (by omega))⟩)
    exact ⟨s', e, h1, h2.kept, by rw [h2.all], fun t hE => hE.same h2⟩
  · rw [if_neg hc]
    cases prev with
    | none =>
      obtain ⟨s', e, h1, h2⟩ := closeSnap_inv (io := io) (a := .write) h (fun _ tb ht => by
        rw [hmax]; exact ⟨htab tb ht, .inl (hnone rfl)⟩)
      exact ⟨s', e, h1, h2.kept, by rw [h2.all], fun t hE => hE.same h2⟩
    | some k =>
      obtain ⟨hk, ⟨y, hy, rfl, hyp⟩, hset⟩ := hsome k rfl
      have hfind := find_mem hy h.rows.sorted
      obtain ⟨p, q, ha, _, hp, hq⟩ := find_split hfind h.rows.sorted
      dsimp only
      rw [hfind]
      dsimp only
      have hseteq : setIdx s.all { y with snap := some sn } = p ++ { y with snap := some sn } :: q := by
        rw [ha]; exact setIdx_split (k := y.key) rfl rfl hp hq
      have hrow := h.rows.row y hy
      have hput : Inv B n0 { s with all := p ++ { y with snap := some sn } :: q } (sid y) := by
        refine h.put (x' := { y with snap := some sn }) ha rfl rfl ⟨hrow.low, hrow.ok, hrow.error, hrow.future, hrow.gone, fun _ _ => hyp, (fun sn' e => ?_), (fun sn' e hn => ?_),
          (fun sn' e _ => ?_), (fun sn' e tb ht => ?_)⟩ (fun h1 _ => .inl ⟨h1, rfl⟩) (fun h => absurd h hm) ?_
        · injection e with e; rw [← e]; exact hmax
        · have hn : s.next ≤ y.key := hn
          omega
        · injection e with e; rw [← e]; exact ⟨hk, hlt, hset⟩
        · injection e with e; rw [← e] at ht ⊢; exact htab tb ht
        · show ([sn.fs.id] ++ sid y).Perm (sid y ++ [sn.fs.id])
          exact List.perm_append_comm
      have hkeys : (p ++ { y with snap := some sn } :: q).map (·.key) = s.all.map (·.key) := by rw [ha]; simp
      have hrows : ∀ z ∈ p ++ { y with snap := some sn } :: q, ∃ x ∈ s.all, z.key = x.key ∧ (x.persist = .ok → z.persist = .ok) := by
        intro z hz
        rcases List.mem_append.1 hz with hz | hz
        · exact ⟨z, by rw [ha]; simp [hz], rfl, id⟩
        · rcases List.mem_cons.1 hz with rfl | hz
          · exact ⟨y, hy, rfl, id⟩
          · exact ⟨z, by rw [ha]; simp [hz], rfl, id⟩
      cases hys : y.snap with
      | none =>
        dsimp only
        rw [Res.bind_ok, hseteq]
        have : sid y = [] := by unfold sid; rw [hys]; rfl
        rw [this] at hput
        exact ⟨_, rfl, hput, ⟨rfl, rfl, rfl, rfl, rfl, rfl, rfl, Grow.refl _, fun _ _ _ h => h⟩, hkeys, fun t hE =>
          hE.acks hrows ⟨[], (List.append_nil _).symm, by simp⟩⟩
      | some sn' =>
        dsimp only
        have : sid y = [sn'.fs.id] := by unfold sid; rw [hys]; rfl
        rw [this] at hput
        rw [closeSnap_free, closeFrames_eq (by exact hput.nums.fresh), Res.bind_ok]
        have hE1 : (closedSt s sn'.fs .free).log = s.log := by
          unfold closedSt; rw [if_pos rfl, List.append_nil]
        refine ⟨_, rfl, ?_, ?_, ?_, fun t hE => hE.acks ?_ ⟨[], by rw [List.append_nil]; exact hE1, by simp⟩⟩
        · rw [show (closedSt s sn'.fs .free).all = s.all from rfl, hseteq]
          exact closedSt_inv (a := .free) hput (fun h => absurd rfl h)
        · exact ⟨rfl, rfl, rfl, rfl, rfl, rfl, rfl, by rw [show (({ closedSt s sn'.fs .free with all := _ } : St)).log = s.log from hE1]; exact Grow.refl _,
            fun a b ok hx => by rw [show (({ closedSt s sn'.fs .free with all := _ } : St)).log = s.log from hE1] at hx; exact hx⟩
        · show (setIdx s.all _).map _ = _
          rw [hseteq]; exact hkeys
        · show ∀ z ∈ setIdx s.all _, _
          rw [hseteq]; exact hrows

/-- What the report of an outcome leaves as it is. -/
structure Told (s s' : St) (a b : Nat) (ok : Bool) : Prop where
  next : s'.next = s.next
  minIdx : s'.minIdx = s.minIdx
  mode : s'.mode = s.mode
  force : s'.force = s.force
  reported : ∀ a' b' ok', .persisted a' b' ok' ∈ s'.log → .persisted a' b' ok' ∈ s.log ∨ (a' = a ∧ b' = b ∧ ok' = ok)
  grow : Grow s.log s'.log

theorem persisted_inv {B n0 : Nat} {s : St} {a b : Nat} {ok nf io : Bool} {t : Nat} (h : Inv B n0 s []) (hE : Ex t s) (hf : Fresh B s a b)
    (ht : nf = true ∨ t = 0) : ∃ s', persisted s a b ok nf io = .ok s' ∧ Inv B n0 s' [] ∧ Ex t s' ∧ Told s s' a b ok ∧
      (nf = true → s'.all.map (·.key) = s.all.map (·.key)) := by
  have hs := range_split (a := a) (b := b) h.rows.sorted
  generalize hp : s.all.takeWhile (fun y => decide (y.key < a)) = p at hs
  generalize hq : (first s.all a).dropWhile (fun y => decide (y.key < b)) = q at hs
  generalize hr : (first s.all a).takeWhile (fun y => decide (y.key < b)) = r at hs
  have h1 := setSt_inv (ok := ok) h hf hs
  have hE1 := setSt_ex (ok := ok) h hE hf hs
  have hnone := range_none h hf hs
  have told : ∀ {s' : St}, Kept (setSt s a b ok p r q) s' → Told s s' a b ok := by
    intro s' hk
    refine ⟨hk.next, hk.minIdx, hk.mode, hk.force, fun a' b' ok' hx => ?_, Grow.trans (Grow.app fun e he => by rw [List.mem_singleton.1 he]; trivial) hk.grow⟩
    rcases List.mem_append.1 (hk.reported a' b' ok' hx) with hx | hx
    · exact .inl hx
    · injection List.mem_singleton.1 hx with e1 e2 e3
      exact .inr ⟨e1, e2, e3⟩
  have hpend : s.pending = keysOf p (· == .none) ++ r.map (·.key) ++ keysOf q (· == .none) := by
    rw [h.rows.pending, hs.all, keysOf_append, keysOf_append, (keysOf_all hnone).1]
  have hdone : s.done = keysOf p (· != .none) ++ keysOf q (· != .none) := by
    rw [h.rows.done, hs.all, keysOf_append, keysOf_append, (keysOf_all hnone).2, List.append_nil]
  cases r with
  | nil =>
    have hemp : setSt s a b ok p [] q = emit s (.persisted a b ok) := by
      unfold setSt
      rw [List.map_nil, List.map_nil, List.append_nil, List.append_nil, ← hdone]
      have e1 : s.all = p ++ q := by rw [hs.all, List.append_nil]
      have e2 : s.pending = keysOf p (· == .none) ++ keysOf q (· == .none) := by rw [hpend, List.map_nil, List.append_nil]
      rw [← e1, ← e2]; rfl
    rw [hemp] at h1 hE1
    have hok : persisted s a b ok nf io = .ok (emit s (.persisted a b ok)) := by
      unfold persisted
      dsimp only
      rw [show (emit s (.persisted a b ok)).all = s.all from rfl]
      cases hfi : first s.all a with
      | nil => rfl
      | cons x rest =>
        dsimp only
        rw [hfi, List.takeWhile_cons] at hr
        split at hr
        · cases hr
        · rename_i hx
          rw [if_pos (by simpa using hx)]
    exact ⟨_, hok, h1, hE1, told (by rw [hemp]; exact Kept.refl _), fun _ => rfl⟩
  | cons x r =>
    have hfi : ∃ rest, first s.all a = x :: rest := by
      cases hfi : first s.all a with
      | nil => rw [hfi] at hr; cases hr
      | cons y rest =>
        rw [hfi, List.takeWhile_cons] at hr
        split at hr
        · injection hr with hr _; exact ⟨rest, by rw [hr]⟩
        · cases hr
    obtain ⟨rest, hfi⟩ := hfi
    obtain ⟨w1, w2⟩ := hs.within x (by simp)
    have hpk : ∀ k ∈ keysOf p (· == .none), k < x.key := fun k hk => by
      obtain ⟨y, hy, _, rfl⟩ := mem_keysOf.1 hk
      have := hs.before y hy
      omega
    have hdk : ∀ k ∈ keysOf p (· != .none), k < x.key := fun k hk => by
      obtain ⟨y, hy, _, rfl⟩ := mem_keysOf.1 hk
      have := hs.before y hy
      omega
    have hqk : ∀ pr, ∀ k ∈ keysOf q pr, b ≤ k := fun pr k hk => by
      obtain ⟨y, hy, _, rfl⟩ := mem_keysOf.1 hk
      exact hs.after y hy
    -- the test of the queue
    have hin : ((x :: r).map (·.key)).all (fun k => decide (k ∈ s.pending)) = true := by
      rw [List.all_eq_true]
      intro k hk
      rw [hpend]
      simp only [List.mem_append, decide_eq_true_eq]
      exact .inl (.inr hk)
    have hprev : (s.pending.takeWhile fun k => decide (k ≠ x.key)) = keysOf p (· == .none) := by
      rw [hpend, List.map_cons, List.append_assoc, List.cons_append]
      exact takeWhile_append_cons (fun k hk => by have := hpk k hk; simp; omega) (by simp)
    have hall : (s.all.map fun y => if y.key ∈ (x :: r).map (·.key) then { y with persist := if ok then .ok else .error, snap := none } else y) =
        p ++ (x :: r).map (upd ok) ++ q := by
      rw [hs.all, List.map_append, List.map_append]
      have hid : ∀ l : List Idx, (∀ y ∈ l, y.key ∉ (x :: r).map (·.key)) →
          (l.map fun y => if y.key ∈ (x :: r).map (·.key) then ({ y with persist := if ok then .ok else .error, snap := none } : Idx) else y) = l := by
        intro l hl
        conv => rhs; rw [← List.map_id l]
        exact List.map_congr_left fun y hy => by rw [if_neg (hl y hy)]; rfl
      have hnot : ∀ y : Idx, (y.key < a ∨ b ≤ y.key) → y.key ∉ (x :: r).map (·.key) := by
        intro y hy hm
        obtain ⟨z, hz, e⟩ := List.mem_map.1 hm
        have := hs.within z hz
        omega
      rw [hid p fun y hy => hnot y (.inl (hs.before y hy)), hid q fun y hy => hnot y (.inr (hs.after y hy))]
      congr 1
      congr 1
      exact List.map_congr_left fun y hy => by rw [if_pos (List.mem_map.2 ⟨y, hy, rfl⟩)]; rfl
    have hpf : (s.pending.filter fun k => decide (k ∉ (x :: r).map (·.key))) = keysOf p (· == .none) ++ keysOf q (· == .none) := by
      have hnot : ∀ k, (k < a ∨ b ≤ k) → k ∉ (x :: r).map (·.key) := by
        intro k hk hm
        obtain ⟨z, hz, e⟩ := List.mem_map.1 hm
        have := hs.within z hz
        omega
      rw [hpend, List.filter_append, List.filter_append, List.filter_eq_self.2 (fun k hk => by
        obtain ⟨y, hy, _, rfl⟩ := mem_keysOf.1 hk
        simpa using hnot y.key (.inl (hs.before y hy))), (List.filter_eq_nil_iff (l := (x :: r).map (·.key))).2 (fun k hk => by simp only [hk]; simp),
        List.filter_eq_self.2 (fun k hk => by simpa using hnot k (.inr (hqk _ k hk))), List.append_nil]
    have hdf : insertDone s.done ((x :: r).map (·.key)) x.key = keysOf p (· != .none) ++ (x :: r).map (·.key) ++ keysOf q (· != .none) := by
      rw [hdone]
      exact insertDone_eq hdk fun k hk => by have := hqk _ k hk; omega
    -- the loop
    obtain ⟨c, n, e2, h2⟩ := lastSnap_inv (A := p ++ (x :: r).map (upd ok) ++ q) (P := keysOf p (· == .none) ++ keysOf q (· == .none))
      (D := keysOf p (· != .none) ++ (x :: r).map (·.key) ++ keysOf q (· != .none)) (lim := []) (x :: r) none (emit s (.persisted a b ok))
      (by rw [List.append_nil]; exact h1)
    rw [List.append_nil] at h2
    generalize hsn : lastOf (x :: r) none = sno at e2 h2
    have hE2 : Ex t { setSt s a b ok p (x :: r) q with closed := c, snapshots := n } := ⟨hE1.flag, hE1.trunc, hE1.lost, hE1.honest⟩
    obtain ⟨s3, e3, h3, hE3, hk3, hsp3, hsame⟩ := freeNonForced_inv (nf := nf) (t := t) h2 hE2 ht
    have hk3' : Kept (setSt s a b ok p (x :: r) q) s3 := ⟨hk3.last, hk3.next, hk3.minIdx, hk3.mode, hk3.force, hk3.made, hk3.tracks, hk3.grow, hk3.reported⟩
    have hkeys3 : nf = true → s3.all.map (·.key) = s.all.map (·.key) := fun hn => by
      rw [hsame hn]; exact setSt_keys s a b ok p (x :: r) q hs.all
    have heq : persisted s a b ok nf io = match (generalizing := false) sno with
        | none => .ok s3
        | some sn => handOver s3 sn (keysOf p (· == .none)).getLast? b ok io := by
      unfold persisted
      dsimp only
      rw [show (emit s (.persisted a b ok)).all = s.all from rfl, hfi]
      dsimp only
      rw [← hfi, hr, if_neg (by omega), if_neg (by simp [hnone x (by simp)]), show (emit s (.persisted a b ok)).pending = s.pending from rfl, hin,
        if_neg (by simp), e2, Res.bind_ok, hprev]
      dsimp only
      rw [show (emit s (.persisted a b ok)).all = s.all from rfl, show (emit s (.persisted a b ok)).pending = s.pending from rfl,
        show (emit s (.persisted a b ok)).done = s.done from rfl, hall, hpf, hdf]
      show (freeNonForced _ nf).bind _ = _
      rw [e3]; rfl
    rw [heq]
    cases sno with
    | none => exact ⟨s3, rfl, h3, hE3, told hk3', hkeys3⟩
    | some sn =>
      dsimp only
      obtain ⟨y, hy, hys⟩ : ∃ y ∈ x :: r, y.snap = some sn := by
        rcases lastOf_mem _ _ _ hsn with h | h
        · cases h
        · exact h
      have hmy : y ∈ s.all := by rw [hs.all]; exact List.mem_append_left _ (List.mem_append_right _ hy)
      have hrow := h.rows.row y hmy
      obtain ⟨y1, y2⟩ := hs.within y hy
      have hle := hf.le
      obtain ⟨g1, g2, g3⟩ := hrow.snapPast sn hys (by omega)
      have hm : s.mode ≠ .off := fun hm => by rw [h.rows.off hm y hmy] at hys; cases hys
      have hgs : Grow s.log s3.log := (told hk3').grow
      have hin : ∀ i, a ≤ i → i ≤ sn.max → Completed s3.log i → Settled s3.log i := by
        intro i h4 h5 h6
        by_cases hib : i < b
        · exact .inl ⟨ok, (setSt_reported h4 hib).mono hk3'.grow.sub⟩
        · exact (g3 i (by omega) h5 (hgs.completed h6)).mono hgs.sub
      have hunset : ∀ i, i < a → Completed s3.log i → ¬ Settled s3.log i → i ∈ keysOf p (· == .none) := by
        intro i h4 h5 h6
        obtain ⟨z, hz, z1, z2, _⟩ := h.rows.unsettled hm i (hgs.completed h5) fun h7 => h6 (h7.mono hgs.sub)
        rw [hs.all] at hz
        rcases List.mem_append.1 hz with hz | hz
        · rcases List.mem_append.1 hz with hz | hz
          · exact mem_keysOf.2 ⟨z, hz, by simp [z2], z1⟩
          · have := hs.within z hz; omega
        · have := hs.after z hz; omega
      obtain ⟨s4, e4, h4, hk4, hkeys4, hE4⟩ := handOver_inv (io := io) (ok := ok) (b := b) (prev := (keysOf p (· == .none)).getLast?) h3
        (by rw [hk3'.mode]; exact hm) (hrow.snapMax sn hys) (by rw [hk3'.next]; exact g2) (fun tb ht => hgs.sub (hrow.snapTable sn hys tb ht))
        (fun hof hltb => by
          subst hof
          exact (setSt_reported (by omega) hltb).mono hk3'.grow.sub)
        (fun hpn i hi hc => Classical.byContradiction fun hns => by
          by_cases hia : a ≤ i
          · exact hns (hin i hia hi hc)
          · have := hunset i (by omega) hc hns
            rw [List.getLast?_eq_none_iff.1 hpn] at this
            cases this)
        (fun k hpk' => by
          obtain ⟨pre, hpre⟩ := List.getLast?_eq_some_iff.1 hpk'
          have hkm : k ∈ keysOf p (· == .none) := by rw [hpre]; simp
          have hka := hpk k hkm
          obtain ⟨z, hz, z1, z2⟩ := mem_keysOf.1 hkm
          have hzn : z.persist = .none := by simpa using z1
          have hzb := hs.before z hz
          refine ⟨by omega, ⟨z, ?_, z2, hzn⟩, fun i h5 h6 h7 => Classical.byContradiction fun hns => ?_⟩
          · refine (hsp3 z hzn).2 ?_
            show z ∈ p ++ _ ++ q
            simp [hz]
          · by_cases hia : a ≤ i
            · exact hns (hin i hia h6 h7)
            · have hip := hunset i (by omega) h7 hns
              rw [hpre] at hip
              rcases List.mem_append.1 hip with hip | hip
              · have hps : (keysOf p (· == .none)).Pairwise (· < ·) := keysOf_sorted (by
                  have := h.rows.sorted
                  rw [hs.all, List.append_assoc] at this
                  exact (List.pairwise_append.1 this).1) _
                rw [hpre] at hps
                have := (List.pairwise_append.1 hps).2.2 i hip k (by simp)
                omega
              · have := List.mem_singleton.1 hip; omega)
      exact ⟨s4, e4, h4, hE4 t hE3, told (hk3'.trans hk4), fun hn => by rw [hkeys4]; exact hkeys3 hn⟩

/-! ## Lack of memory -/

/-- The writes that are cancelled can be. -/
structure FreshAll (B : Nat) (s : St) (cs : List (Nat × Nat × Bool)) : Prop where
  each : ∀ c ∈ cs, Fresh B s c.1 c.2.1
  nodup : (cs.map (·.1)).Nodup

theorem FreshAll.step {B : Nat} {s s' : St} {c : Nat × Nat × Bool} {cs : List (Nat × Nat × Bool)} {ok : Bool} (h : FreshAll B s (c :: cs))
    (ht : Told s s' c.1 c.2.1 ok) : FreshAll B s' cs := by
  have hn := h.nodup
  rw [List.map_cons, List.nodup_cons] at hn
  refine ⟨fun d hd => ?_, hn.2⟩
  have hd' := h.each d (by simp [hd])
  refine ⟨hd'.pos, hd'.bucket, by rw [ht.next]; exact hd'.le, fun ok' hx => ?_⟩
  rcases ht.reported _ _ _ hx with hx | ⟨hx, _⟩
  · exact hd'.new ok' hx
  · exact hn.1 (hx ▸ List.mem_map.2 ⟨d, hd, rfl⟩)

theorem FreshAll.kept {B : Nat} {s s' : St} {cs : List (Nat × Nat × Bool)} (h : FreshAll B s cs) (hk : Kept s s') : FreshAll B s' cs :=
  ⟨fun d hd => have hd' := h.each d hd; ⟨hd'.pos, hd'.bucket, by rw [hk.next]; exact hd'.le, fun ok hx => hd'.new ok (hk.reported _ _ _ hx)⟩, h.nodup⟩

theorem cancels_inv {B n0 t : Nat} : ∀ (cs cs' : List (Nat × Nat × Bool)) (s : St), Inv B n0 s [] → Ex t s → FreshAll B s (cs ++ cs') →
    ∃ s', cancels cs s = .ok s' ∧ Inv B n0 s' [] ∧ Ex t s' ∧ FreshAll B s' cs' ∧ s'.next = s.next ∧ (s'.mode = s.mode ∧ s'.force = s.force) ∧
      s'.all.map (·.key) = s.all.map (·.key)
  | [], cs', s, h, hE, hf => ⟨s, rfl, h, hE, hf, rfl, ⟨rfl, rfl⟩, rfl⟩
  | (a, b, io) :: cs, cs', s, h, hE, hf => by
    obtain ⟨s1, e1, h1, hE1, ht1, hk1⟩ := persisted_inv (ok := false) (nf := true) (io := io) h hE (hf.each (a, b, io) (by simp)) (.inl rfl)
    obtain ⟨s2, e2, h2, hE2, hf2, hn2, hm2, hk2⟩ := cancels_inv cs cs' s1 h1 hE1 (FreshAll.step (c := (a, b, io)) hf ht1)
    refine ⟨s2, ?_, h2, hE2, hf2, by rw [hn2, ht1.next], ⟨by rw [hm2.1, ht1.mode], by rw [hm2.2, ht1.force]⟩, by rw [hk2, hk1 rfl]⟩
    unfold cancels
    rw [e1, Res.bind_ok]
    exact e2

theorem wmLoop_inv {B n0 : Nat} : ∀ (css : List (List (Nat × Nat × Bool))) (s : St) (tr : Nat), Inv B n0 s [] → Ex tr s → FreshAll B s css.flatten →
    (∀ y ∈ s.all, tr ≤ y.key) → ∃ s' tr', wmLoop css s tr = .ok (s', tr') ∧ Inv B n0 s' [] ∧ Ex tr' s' ∧ s'.mode = s.mode ∧ s'.force = s.force
  | [], s, tr, h, hE, _, _ => ⟨s, tr, rfl, h, hE, rfl, rfl⟩
  | cs :: css, s, tr, h, hE, hf, htr => by
    unfold wmLoop
    cases ha : s.all with
    | nil => exact ⟨s, tr, rfl, h, hE, rfl, rfl⟩
    | cons x l =>
      dsimp only
      by_cases hx : x.key ≥ s.next
      · rw [if_pos hx]; exact ⟨s, tr, rfl, h, hE, rfl, rfl⟩
      · rw [if_neg hx]
        obtain ⟨s1, e1, h1, hE1, hf1, hn1, hm1, hk1⟩ := cancels_inv cs css.flatten s h hE hf
        rw [e1, Res.bind_ok]
        rw [ha, List.map_cons] at hk1
        cases ha1 : s1.all with
        | nil => rw [ha1] at hk1; cases hk1
        | cons y l1 =>
          rw [ha1, List.map_cons] at hk1
          injection hk1 with hky hkl
          rw [show find (y :: l1) x.key = some y by unfold find; rw [List.find?_cons_of_pos (by simp [hky])]]
          dsimp only
          have hfy : find s1.all y.key = some y := by rw [ha1]; unfold find; rw [List.find?_cons_of_pos (by simp)]
          obtain ⟨h2, hE2, p, q, hpq, hset⟩ := lock_inv (n := 0) h1 hE1 hfy
          have hso := h1.rows.sorted
          have hp : p = [] := by
            cases p with
            | nil => rfl
            | cons z p =>
              rw [ha1] at hpq hso
              injection hpq with hz hpq
              have := (List.pairwise_cons.1 hso).1 y (by rw [hpq]; simp)
              omega
          subst hp
          rw [List.nil_append] at hset
          have hq : q = l1 := by rw [ha1] at hpq; injection hpq with _ hpq; exact hpq.symm
          subst hq
          have hhead : ∀ i, i < y.key → s1.mode ≠ .off → Completed s1.log i → Settled s1.log i := fun i hi hm hc => Classical.byContradiction fun hns => by
            obtain ⟨z, hz, z1, _⟩ := h1.rows.unsettled hm i hc hns
            rw [ha1] at hz hso
            rcases List.mem_cons.1 hz with rfl | hz
            · omega
            · have := (List.pairwise_cons.1 hso).1 z hz; omega
          obtain ⟨s3, e3, h3, hk3, hall3, hex3⟩ := free_inv (why := .memory) (tr := tr) (p := []) (x := { y with locks := 0 }) (q := q) h2 hset
            (by show y.key < s1.next; omega) (fun h => by cases h) (fun sn hsn => .inr fun i hi hc => by
              refine hhead i hi (fun hm => ?_) hc
              have hoff := h1.rows.off hm y (by rw [ha1]; simp)
              have hsn : y.snap = some sn := hsn
              rw [hoff] at hsn; cases hsn)
          have htr1 : tr ≤ y.key := by rw [hky]; exact htr x (by rw [ha]; simp)
          have hE3 := hex3 tr _ hE2 (.inr ⟨htr1, rfl⟩)
          have hall3 : s3.all = q := hall3
          obtain ⟨s4, tr', e4, h4, hE4, hn4⟩ := wmLoop_inv css s3 (newTr { y with locks := 0 } tr) h3 hE3 (FreshAll.kept (s := { s1 with all := setIdx s1.all { y with locks := 0 } })
            ⟨fun d hd => have hd' := hf1.each d hd; ⟨hd'.pos, hd'.bucket, hd'.le, hd'.new⟩, hf1.nodup⟩ hk3) (fun z hz => by
            rw [hall3] at hz
            rw [ha1] at hso
            have := (List.pairwise_cons.1 hso).1 z hz
            unfold newTr
            split
            · omega
            · show y.key ≤ z.key; omega)
          refine ⟨s4, tr', ?_, h4, hE4, by rw [hn4.1, hk3.mode]; exact hm1.1, by rw [hn4.2, hk3.force]; exact hm1.2⟩
          rw [← ha1, ← hky]
          have e3 : free { s1 with all := setIdx s1.all { y with locks := 0 } } .memory y.key tr = .ok (s3, newTr { y with locks := 0 } tr) := e3
          rw [e3, Res.bind_ok]
          exact e4

theorem watermark_inv {B n0 : Nat} {s : St} {css : List (List (Nat × Nat × Bool))} (h : Inv B n0 s []) (hE : Ex 0 s) (hf : FreshAll B s css.flatten) :
    ∃ s', watermark s css = .ok s' ∧ Inv B n0 s' [] ∧ Ex 0 s' ∧ s'.mode = s.mode ∧ s'.force = s.force := by
  obtain ⟨s1, tr, e, h1, hE1, hm, hfo⟩ := wmLoop_inv css s 0 h hE hf (fun _ _ => Nat.zero_le _)
  obtain ⟨g1, g2, g3, _⟩ := truncated_inv h1 hE1
  refine ⟨truncated s1 tr, ?_, g1, g2, by rw [g3.mode, hm], by rw [g3.force, hfo]⟩
  unfold watermark
  rw [e]; rfl

end Verif.SegmentIndex
