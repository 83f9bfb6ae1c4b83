import Verif.KmpInFrames

/-!
# Property C36: every chain node is given back or given away exactly once
-/

namespace Verif.KmpIn

open Verif.BufChain (copy skip)

/-- Where the nodes are: each allocated node is in exactly one of three places. -/
def Nodes {σ : Type} (x : Ctx σ) : Prop :=
  (x.freed ++ x.passed.map (·.id) ++ x.chain.map (·.id)).Perm (List.range x.nextNode)

theorem nodes_move {σ : Type} {x y : Ctx σ} (h : Nodes x) (hn : y.nextNode = x.nextNode)
    (he : (y.freed ++ y.passed.map (·.id) ++ y.chain.map (·.id)).Perm (x.freed ++ x.passed.map (·.id) ++ x.chain.map (·.id))) : Nodes y := by
  unfold Nodes
  rw [hn]
  exact he.trans h

theorem nodes_freeChain {σ : Type} {x : Ctx σ} (h : Nodes x) : Nodes (freeChain x) := by
  refine nodes_move h rfl ?_
  unfold freeChain
  dsimp only
  rw [List.map_nil, List.append_nil, List.append_assoc, List.append_assoc]
  exact List.Perm.append_left _ List.perm_append_comm

theorem nodes_passChain {σ : Type} {x : Ctx σ} (h : Nodes x) : Nodes (passChain x) := by
  refine nodes_move h rfl ?_
  unfold passChain
  dsimp only
  rw [List.map_nil, List.append_nil, List.map_append, ← List.append_assoc]

theorem nodes_copyHeader {σ : Type} {x : Ctx σ} (size : Nat) (h : Nodes x) : Nodes (copyHeader x size).1 := by
  unfold copyHeader
  dsimp only
  split
  · exact h
  have hcl := copy_len (datas x.chain) size
  match hc : copy (datas x.chain) size with
  | (none, _) => exact h
  | (some bytes, d) =>
    rw [hc] at hcl
    dsimp only at hcl ⊢
    have hr : (if hsize x.raw - hdrLen - size > 0 then skip d (hsize x.raw - hdrLen - size) else (true, d)).2.length ≤
        d.length := by
      split
      · exact skip_len d _
      · exact Nat.le_refl _
    generalize (if hsize x.raw - hdrLen - size > 0 then skip d (hsize x.raw - hdrLen - size) else (true, d)) = r at *
    split
    · exact h
    · refine nodes_move h rfl ?_
      dsimp only
      have hl : (datas x.chain).length = x.chain.length := List.length_map _
      have hz : (x.chain.drop (x.chain.length - r.2.length)).length = r.2.length := by
        rw [List.length_drop]
        omega
      rw [ids_zipWith _ _ hz]
      conv => rhs; rw [← List.take_append_drop (x.chain.length - r.2.length) x.chain, List.map_append]
      simp only [List.append_assoc]
      refine List.Perm.append_left _ ?_
      rw [← List.append_assoc, ← List.append_assoc]
      exact List.Perm.append_right _ List.perm_append_comm

theorem nodes_connectData {σ : Type} (a : App σ) {x : Ctx σ} (h : Nodes x) : Nodes (connectData a x).1 := by
  unfold connectData
  dsimp only
  generalize (if hsize x.raw > connectLen then skip (datas x.chain) (hsize x.raw - connectLen)
    else (true, datas x.chain)) = q
  split
  · exact h
  · split <;> exact h

theorem nodes_mediaInfo {σ : Type} (a : App σ) {x : Ctx σ} (h : Nodes x) : Nodes (mediaInfo a x).1 := by
  have h1 := nodes_copyHeader mediaInfoLen h
  unfold mediaInfo
  generalize copyHeader x mediaInfoLen = q at h1
  split
  · exact h1
  · dsimp only at h1 ⊢
    split
    · exact h1
    · split
      · exact nodes_move (nodes_passChain h1) rfl (List.Perm.refl _)
      · exact h1
      · exact h1
      · exact h1

theorem nodes_frame {σ : Type} (a : App σ) {x : Ctx σ} (h : Nodes x) : Nodes (frame a x).1 := by
  have h1 := nodes_copyHeader frameLen h
  unfold frame
  generalize copyHeader x frameLen = q at h1
  split
  · exact h1
  · dsimp only at h1 ⊢
    split
    · split <;> exact h1
    · split
      · exact h1
      · split
        · exact h1
        · split
          · exact h1
          · split
            · exact h1
            · split
              · exact nodes_move (nodes_passChain h1) rfl (List.Perm.refl _)
              · exact h1
              · exact h1
              · exact h1

theorem nodes_dispatch {σ : Type} (a : App σ) {x : Ctx σ} (h : Nodes x) : Nodes (dispatch a x).1 := by
  unfold dispatch
  dsimp only
  have key : Nodes (if ptype x.raw = tConnect then connectData a x
      else if ptype x.raw = tMediaInfo then mediaInfo a x
      else if ptype x.raw = tFrame then frame a x
      else if ptype x.raw = tNull then (x, none)
      else if ptype x.raw = tEos then ((call a x .endStream).1, some .ok)
      else (x, some .bad)).1 := by
    split
    · exact nodes_connectData a h
    split
    · exact nodes_mediaInfo a h
    split
    · exact nodes_frame a h
    split
    · exact h
    split <;> exact h
  generalize (if ptype x.raw = tConnect then connectData a x
      else if ptype x.raw = tMediaInfo then mediaInfo a x
      else if ptype x.raw = tFrame then frame a x
      else if ptype x.raw = tNull then (x, none)
      else if ptype x.raw = tEos then ((call a x .endStream).1, some .ok)
      else (x, some .bad)) = q at key
  split
  · exact nodes_freeChain key
  · exact key

theorem nodes_link {σ : Type} {x : Ctx σ} (addr : Nat) (b : List UInt8) (h : Nodes x) : Nodes (link x addr b) := by
  unfold link
  split
  · rename_i n hn
    split
    · refine nodes_move h rfl ?_
      dsimp only
      obtain ⟨ys, e⟩ := List.getLast?_eq_some_iff.mp hn
      rw [e, List.dropLast_concat]
      simp
    · unfold Nodes at h ⊢
      dsimp only
      rw [List.map_append, ← List.append_assoc, List.range_succ]
      exact List.Perm.append_right _ h
  · rename_i hn
    rw [List.getLast?_eq_none_iff] at hn
    unfold Nodes at h ⊢
    rw [hn, List.map_nil, List.append_nil] at h
    dsimp only
    rw [List.range_succ]
    exact List.Perm.append_right _ h

theorem nodes_body {σ : Type} (a : App σ) {x : Ctx σ} (addr : Nat) (b : List UInt8) (h : Nodes x) :
    Nodes (body a x addr b).1 := by
  unfold body
  dsimp only
  have key : Nodes (if min b.length x.left > 0 then
      { link x addr (b.take (min b.length x.left)) with left := x.left - min b.length x.left } else x) := by
    split
    · exact nodes_move (nodes_link addr _ h) rfl (List.Perm.refl _)
    · exact h
  generalize (if min b.length x.left > 0 then
      { link x addr (b.take (min b.length x.left)) with left := x.left - min b.length x.left } else x) = y at key
  split
  · exact key
  · have := nodes_dispatch a key
    split
    · rename_i e
      rw [e] at this
      exact this
    · rename_i e
      rw [e] at this
      exact this

theorem nodes_process {σ : Type} (a : App σ) : ∀ (k : Nat) (x : Ctx σ) (addr : Nat) (b : List UInt8) (r : Ctx σ × Option Status),
    Nodes x → process a k x addr b = some r → Nodes r.1
  | 0, _, _, _, _, _, e => nomatch e
  | _ + 1, x, _, [], r, h, e => by
    cases e
    exact h
  | k + 1, x, addr, c :: cs, r, h, e => by
    unfold process at e
    dsimp only at e
    split at e
    · split at e
      · cases e
        exact h
      · split at e
        · cases e
          exact h
        · split at e
          · rename_i e2
            have := nodes_body a (x := { x with
              raw := x.part ++ (c :: cs).take (hdrLen - x.part.length), part := [],
              left := hsize (x.part ++ (c :: cs).take (hdrLen - x.part.length)) +
                dsize (x.part ++ (c :: cs).take (hdrLen - x.part.length)) - hdrLen }) (addr + (hdrLen - x.part.length))
              ((c :: cs).drop (hdrLen - x.part.length)) h
            rw [e2] at this
            exact nodes_process a k _ _ _ r this e
          · rename_i e2
            have := nodes_body a (x := { x with
              raw := x.part ++ (c :: cs).take (hdrLen - x.part.length), part := [],
              left := hsize (x.part ++ (c :: cs).take (hdrLen - x.part.length)) +
                dsize (x.part ++ (c :: cs).take (hdrLen - x.part.length)) - hdrLen }) (addr + (hdrLen - x.part.length))
              ((c :: cs).drop (hdrLen - x.part.length)) h
            rw [e2] at this
            cases e
            exact this
    · have := nodes_body a addr (c :: cs) h
      split at e
      · rename_i e2
        rw [e2] at this
        exact nodes_process a k _ _ _ r this e
      · rename_i e2
        rw [e2] at this
        cases e
        exact this

theorem nodes_connect {σ : Type} (a : App σ) {c : Prop} [Decidable c] {y x1 : Ctx σ} {st : Option Status}
    (e : (if c then connectData a y else (y, none)) = (x1, st)) (h : Nodes y) : Nodes x1 := by
  split at e
  · have := nodes_connectData a h
    rw [e] at this
    exact this
  · cases e
    exact h

theorem nodes_readHeader {σ : Type} (a : App σ) {x : Ctx σ} (b : List UInt8) (h : Nodes x) :
    Nodes (readHeader a x b).1 := by
  unfold readHeader
  dsimp only
  split
  · exact h
  split
  · exact h
  split
  · exact h
  split
  · exact h
  split
  · exact h
  split
  · exact h
  · split
    · rename_i e
      exact nodes_connect a e h
    · rename_i e
      exact nodes_move (nodes_connect a e h) rfl (List.Perm.refl _)

theorem nodes_run {σ : Type} (a : App σ) : ∀ (pieces : List (Nat × List UInt8)) (x : Ctx σ) (r : Ctx σ × Option Status),
    Nodes x → run a x pieces = some r → Nodes r.1
  | [], _, _, h, e => by
    cases e
    exact h
  | (addr, b) :: rest, x, r, h, e => by
    unfold run at e
    match hr : receive a x addr b with
    | none =>
      rw [hr] at e
      cases e
    | some (x1, st) =>
      rw [hr, Option.bind_some] at e
      have h1 : Nodes x1 := by
        unfold receive at hr
        split at hr
        · injection hr with hr
          have := nodes_readHeader a b h
          rw [hr] at this
          exact this
        · exact nodes_process a _ x addr b (x1, st) h hr
      cases st with
      | some st => cases e; exact h1
      | none => exact nodes_run a rest x1 r h1 e

/-- C36: after any connection, whatever was received and whatever the application answered, and however it
ended, every node that was allocated has been given back or given to the application, and exactly once. -/
theorem run_nodes {σ : Type} (a : App σ) (s0 : σ) (pieces : List (Nat × List UInt8)) (x : Ctx σ) (st : Option Status)
    (h : run a (create s0) pieces = some (x, st)) :
    ((cleanup x).freed ++ (cleanup x).passed.map (·.id)).Perm (List.range x.nextNode) := by
  have h0 : Nodes (create s0) := List.Perm.refl _
  have h1 : Nodes x := nodes_run a pieces (create s0) (x, st) h0 h
  have h2 := nodes_freeChain h1
  unfold Nodes at h2
  rw [show (freeChain x).chain = [] from rfl, List.map_nil, List.append_nil] at h2
  exact h2

/-! ## What the nodes point to -/

/-- The bytes `b` are in the memory `M` at address `a`. -/
def Stored (M : Nat → UInt8) (a : Nat) (b : List UInt8) : Prop := ∀ i, b[i]?.all (· == M (a + i)) = true

theorem stored_append {M : Nat → UInt8} {a : Nat} {b c : List UInt8} :
    Stored M a (b ++ c) ↔ Stored M a b ∧ Stored M (a + b.length) c := by
  constructor
  · intro h
    refine ⟨fun i => ?_, fun i => ?_⟩
    · by_cases hi : i < b.length
      · have := h i
        rwa [List.getElem?_append_left hi] at this
      · rw [List.getElem?_eq_none (by omega)]
        rfl
    · have := h (b.length + i)
      rwa [List.getElem?_append_right (by omega), Nat.add_sub_cancel_left, ← Nat.add_assoc] at this
  · rintro ⟨h1, h2⟩ i
    by_cases hi : i < b.length
    · rw [List.getElem?_append_left hi]
      exact h1 i
    · rw [List.getElem?_append_right (by omega)]
      have := h2 (i - b.length)
      rwa [show a + b.length + (i - b.length) = a + i by omega] at this

theorem stored_take {M : Nat → UInt8} {a : Nat} {b : List UInt8} (h : Stored M a b) (n : Nat) :
    Stored M a (b.take n) := by
  rw [← List.take_append_drop n b, stored_append] at h
  exact h.1

theorem stored_drop {M : Nat → UInt8} {a : Nat} {b : List UInt8} (h : Stored M a b) {n : Nat} (hn : n ≤ b.length) :
    Stored M (a + n) (b.drop n) := by
  rw [← List.take_append_drop n b, stored_append, List.length_take, Nat.min_eq_left hn] at h
  exact h.2

theorem stored_trim {M : Nat → UInt8} {n : Node} {s : List UInt8} (h : Stored M n.addr n.bytes) (hs : s <:+ n.bytes) :
    Stored M (trim n s).addr (trim n s).bytes := by
  obtain ⟨t, e⟩ := hs
  unfold trim
  dsimp only
  rw [← e, stored_append] at h
  rw [← e, List.length_append, Nat.add_sub_cancel_right]
  exact h.2

/-- `d` is `c` without some bytes at the front. -/
inductive Rest : List (List UInt8) → List (List UInt8) → Prop where
  | nil : Rest [] []
  | drop {d b c} : Rest d c → Rest d (b :: c)
  | trim {s b c} : s <:+ b → Rest (s :: c) (b :: c)

theorem Rest.refl : ∀ c, Rest c c
  | [] => .nil
  | b :: _ => .trim (List.suffix_refl b)

theorem Rest.trans {d e c : List (List UInt8)} (h : Rest d e) (h2 : Rest e c) : Rest d c := by
  induction h2 with
  | nil => exact h
  | drop _ ih => exact .drop (ih h)
  | trim hs =>
    cases h with
    | drop h => exact .drop h
    | trim h => exact .trim (h.trans hs)

theorem copy_rest : ∀ (c : List (List UInt8)) (n : Nat), Rest (copy c n).2 c
  | [], 0 => .nil
  | [], _ + 1 => .nil
  | b :: c, 0 => .refl _
  | b :: c, n + 1 => by
    unfold copy
    split
    · exact .trim (List.drop_suffix ..)
    · exact .drop (copy_rest c _)

theorem skip_rest : ∀ (c : List (List UInt8)) (n : Nat), Rest (skip c n).2 c
  | [], 0 => .nil
  | [], _ + 1 => .nil
  | b :: c, 0 => .refl _
  | b :: c, n + 1 => by
    unfold skip
    split
    · exact .trim (List.drop_suffix ..)
    · exact .drop (skip_rest c _)

theorem trim_self : ∀ c : List Node, c.zipWith trim (datas c) = c
  | [] => rfl
  | n :: c => by
    show trim n n.bytes :: c.zipWith trim (datas c) = n :: c
    rw [trim_self c]
    unfold trim
    rw [Nat.sub_self, Nat.add_zero]

theorem stored_rest {M : Nat → UInt8} : ∀ (c : List Node) (d : List (List UInt8)), Rest d (datas c) →
    (∀ n ∈ c, Stored M n.addr n.bytes) →
    ∀ n ∈ (c.drop (c.length - d.length)).zipWith trim d, Stored M n.addr n.bytes
  | [], d, hd, h => by
    intro n hn
    simp at hn
  | n :: c, d, hd, h => by
    have hdl : ∀ {d e : List (List UInt8)}, Rest d e → d.length ≤ e.length := by
      intro d e hde
      induction hde with
      | nil => exact Nat.le_refl _
      | drop _ ih => exact Nat.le_succ_of_le ih
      | trim => exact Nat.le_refl _
    have hd' : Rest d (n.bytes :: datas c) := hd
    cases hd' with
    | drop hd' =>
      have hl := hdl hd'
      rw [show (datas c).length = c.length from List.length_map _] at hl
      rw [List.length_cons, show c.length + 1 - d.length = c.length - d.length + 1 by omega, List.drop_succ_cons]
      exact stored_rest c d hd' fun m hm => h m (List.mem_cons_of_mem _ hm)
    | @trim s _ _ hs =>
      have hlen : (s :: datas c).length = (n :: c).length := by
        rw [List.length_cons, List.length_cons]
        exact congrArg Nat.succ (List.length_map _)
      rw [hlen, Nat.sub_self, List.drop_zero]
      show ∀ m ∈ trim n s :: c.zipWith trim (datas c), _
      rw [trim_self]
      intro m hm
      rcases List.mem_cons.mp hm with rfl | hm
      · exact stored_trim (h n (List.mem_cons_self ..)) hs
      · exact h m (List.mem_cons_of_mem _ hm)

/-- Every node points to the bytes it stands for. -/
def Points {σ : Type} (M : Nat → UInt8) (x : Ctx σ) : Prop := ∀ n ∈ x.passed ++ x.chain, Stored M n.addr n.bytes

theorem points_passChain {σ : Type} {M : Nat → UInt8} {x : Ctx σ} (h : Points M x) : Points M (passChain x) := by
  intro n hn
  unfold passChain at hn
  dsimp only at hn
  rw [List.append_nil] at hn
  exact h n hn

theorem points_freeChain {σ : Type} {M : Nat → UInt8} {x : Ctx σ} (h : Points M x) : Points M (freeChain x) := by
  intro n hn
  unfold freeChain at hn
  dsimp only at hn
  rw [List.append_nil] at hn
  exact h n (List.mem_append_left _ hn)

theorem points_copyHeader {σ : Type} {M : Nat → UInt8} {x : Ctx σ} (size : Nat) (h : Points M x) :
    Points M (copyHeader x size).1 := by
  unfold copyHeader
  dsimp only
  split
  · exact h
  have hcl := copy_rest (datas x.chain) size
  match hc : copy (datas x.chain) size with
  | (none, _) => exact h
  | (some bytes, d) =>
    rw [hc] at hcl
    dsimp only at hcl ⊢
    have hr : Rest (if hsize x.raw - hdrLen - size > 0 then skip d (hsize x.raw - hdrLen - size) else (true, d)).2 d := by
      split
      · exact skip_rest d _
      · exact .refl _
    generalize (if hsize x.raw - hdrLen - size > 0 then skip d (hsize x.raw - hdrLen - size) else (true, d)) = r at *
    split
    · exact h
    · intro n hn
      rcases List.mem_append.mp hn with hn | hn
      · exact h n (List.mem_append_left _ hn)
      · exact stored_rest x.chain r.2 (hr.trans hcl) (fun m hm => h m (List.mem_append_right _ hm)) n hn

theorem points_connectData {σ : Type} {M : Nat → UInt8} (a : App σ) {x : Ctx σ} (h : Points M x) :
    Points M (connectData a x).1 := by
  unfold connectData
  dsimp only
  generalize (if hsize x.raw > connectLen then skip (datas x.chain) (hsize x.raw - connectLen)
    else (true, datas x.chain)) = q
  split
  · exact h
  · split <;> exact h

theorem points_mediaInfo {σ : Type} {M : Nat → UInt8} (a : App σ) {x : Ctx σ} (h : Points M x) :
    Points M (mediaInfo a x).1 := by
  have h1 := points_copyHeader mediaInfoLen h
  unfold mediaInfo
  generalize copyHeader x mediaInfoLen = q at h1
  split
  · exact h1
  · dsimp only at h1 ⊢
    split
    · exact h1
    · split
      · exact points_passChain h1
      · exact h1
      · exact h1
      · exact h1

theorem points_frame {σ : Type} {M : Nat → UInt8} (a : App σ) {x : Ctx σ} (h : Points M x) :
    Points M (frame a x).1 := by
  have h1 := points_copyHeader frameLen h
  unfold frame
  generalize copyHeader x frameLen = q at h1
  split
  · exact h1
  · dsimp only at h1 ⊢
    split
    · split <;> exact h1
    · split
      · exact h1
      · split
        · exact h1
        · split
          · exact h1
          · split
            · exact h1
            · split
              · exact points_passChain h1
              · exact h1
              · exact h1
              · exact h1

theorem points_dispatch {σ : Type} {M : Nat → UInt8} (a : App σ) {x : Ctx σ} (h : Points M x) :
    Points M (dispatch a x).1 := by
  unfold dispatch
  dsimp only
  have key : Points M (if ptype x.raw = tConnect then connectData a x
      else if ptype x.raw = tMediaInfo then mediaInfo a x
      else if ptype x.raw = tFrame then frame a x
      else if ptype x.raw = tNull then (x, none)
      else if ptype x.raw = tEos then ((call a x .endStream).1, some .ok)
      else (x, some .bad)).1 := by
    split
    · exact points_connectData a h
    split
    · exact points_mediaInfo a h
    split
    · exact points_frame a h
    split
    · exact h
    split <;> exact h
  generalize (if ptype x.raw = tConnect then connectData a x
      else if ptype x.raw = tMediaInfo then mediaInfo a x
      else if ptype x.raw = tFrame then frame a x
      else if ptype x.raw = tNull then (x, none)
      else if ptype x.raw = tEos then ((call a x .endStream).1, some .ok)
      else (x, some .bad)) = q at key
  split
  · exact points_freeChain key
  · exact key

theorem points_link {σ : Type} {M : Nat → UInt8} {x : Ctx σ} (addr : Nat) (b : List UInt8) (h : Points M x)
    (hb : Stored M addr b) : Points M (link x addr b) := by
  unfold link
  split
  · rename_i n hn
    obtain ⟨ys, e⟩ := List.getLast?_eq_some_iff.mp hn
    split
    · rename_i heq
      intro m hm
      dsimp only at hm
      rw [e, List.dropLast_concat, ← List.append_assoc] at hm
      rcases List.mem_append.mp hm with hm | hm
      · refine h m ?_
        rw [e, ← List.append_assoc]
        exact List.mem_append_left _ hm
      · rw [List.mem_singleton] at hm
        rw [hm]
        dsimp only
        rw [stored_append, heq]
        exact ⟨h n (by rw [e]; simp), hb⟩
    · intro m hm
      dsimp only at hm
      rw [← List.append_assoc] at hm
      rcases List.mem_append.mp hm with hm | hm
      · exact h m hm
      · rw [List.mem_singleton] at hm
        rw [hm]
        exact hb
  · intro m hm
    dsimp only at hm
    rcases List.mem_append.mp hm with hm | hm
    · exact h m (List.mem_append_left _ hm)
    · rw [List.mem_singleton] at hm
      rw [hm]
      exact hb

theorem points_body {σ : Type} {M : Nat → UInt8} (a : App σ) {x : Ctx σ} (addr : Nat) (b : List UInt8) (h : Points M x)
    (hb : Stored M addr b) : Points M (body a x addr b).1 ∧
      ∀ b2, (body a x addr b).2.1 = some b2 → ∃ n, n ≤ b.length ∧ b2 = b.drop n := by
  unfold body
  dsimp only
  have key : Points M (if min b.length x.left > 0 then
      { link x addr (b.take (min b.length x.left)) with left := x.left - min b.length x.left } else x) := by
    split
    · exact points_link addr _ h (stored_take hb _)
    · exact h
  generalize (if min b.length x.left > 0 then
      { link x addr (b.take (min b.length x.left)) with left := x.left - min b.length x.left } else x) = y at key
  split
  · exact ⟨key, fun _ e => nomatch e⟩
  · have := points_dispatch a key
    split
    · rename_i e
      rw [e] at this
      exact ⟨this, fun b2 e2 => ⟨min b.length x.left, by omega, by cases e2; rfl⟩⟩
    · rename_i e
      rw [e] at this
      exact ⟨this, fun _ e => nomatch e⟩

theorem points_process {σ : Type} {M : Nat → UInt8} (a : App σ) : ∀ (k : Nat) (x : Ctx σ) (addr : Nat) (b : List UInt8)
    (r : Ctx σ × Option Status), Points M x → Stored M addr b → process a k x addr b = some r → Points M r.1
  | 0, _, _, _, _, _, _, e => nomatch e
  | _ + 1, x, _, [], r, h, _, e => by
    cases e
    exact h
  | k + 1, x, addr, c :: cs, r, h, hb, e => by
    unfold process at e
    dsimp only at e
    generalize hbb : c :: cs = b at e hb
    have step : ∀ (y : Ctx σ) (n : Nat), Points M y → n ≤ b.length →
        (match body a y (addr + n) (b.drop n) with
          | (x2, some b2, _) => process a k x2 (addr + (b.length - b2.length)) b2
          | (x2, none, st) => some (x2, st)) = some r → Points M r.1 := by
      intro y n hy hn e
      obtain ⟨h1, h2⟩ := points_body a (addr + n) (b.drop n) hy (stored_drop hb hn)
      split at e
      · rename_i x2 b2 _ e2
        rw [e2] at h1 h2
        obtain ⟨m, hm, rfl⟩ := h2 b2 rfl
        rw [List.length_drop] at hm
        refine points_process a k x2 _ _ r h1 ?_ e
        rw [List.drop_drop, List.length_drop, show b.length - (b.length - (n + m)) = n + m by omega]
        exact stored_drop hb (by omega)
      · rename_i e2
        rw [e2] at h1
        cases e
        exact h1
    split at e
    · split at e
      · cases e
        exact h
      · rename_i hlen
        split at e
        · cases e
          exact h
        · have hy : Points M ({ x with
            raw := x.part ++ b.take (hdrLen - x.part.length), part := [],
            left := hsize (x.part ++ b.take (hdrLen - x.part.length)) +
              dsize (x.part ++ b.take (hdrLen - x.part.length)) - hdrLen } : Ctx σ) := h
          exact step _ (hdrLen - x.part.length) hy (by omega) e
    · refine step x 0 h (Nat.zero_le _) ?_
      rw [Nat.add_zero, List.drop_zero]
      exact e

theorem points_readHeader {σ : Type} {M : Nat → UInt8} (a : App σ) {x : Ctx σ} (b : List UInt8) (h : Points M x) :
    Points M (readHeader a x b).1 := by
  have hc : ∀ {c : Prop} [Decidable c] {y x1 : Ctx σ} {st : Option Status},
      (if c then connectData a y else (y, none)) = (x1, st) → Points M y → Points M x1 := by
    intro c _ y x1 st e h
    split at e
    · have := points_connectData a h
      rw [e] at this
      exact this
    · cases e
      exact h
  unfold readHeader
  dsimp only
  split
  · exact h
  split
  · exact h
  split
  · exact h
  split
  · exact h
  split
  · exact h
  split
  · exact h
  · split
    · rename_i e
      exact hc e h
    · rename_i e
      have hy := hc e h
      exact hy

/-- C36: if every received piece stays where it was stored, then every node given to the application or still
held points to exactly the bytes it stands for in the events. -/
theorem run_points {σ : Type} (a : App σ) (M : Nat → UInt8) : ∀ (pieces : List (Nat × List UInt8)) (x : Ctx σ)
    (r : Ctx σ × Option Status), Points M x → (∀ p ∈ pieces, Stored M p.1 p.2) → run a x pieces = some r → Points M r.1
  | [], _, _, h, _, e => by
    cases e
    exact h
  | (addr, b) :: rest, x, r, h, hp, e => by
    unfold run at e
    match hr : receive a x addr b with
    | none =>
      rw [hr] at e
      cases e
    | some (x1, st) =>
      rw [hr, Option.bind_some] at e
      have h1 : Points M x1 := by
        unfold receive at hr
        split at hr
        · injection hr with hr
          have := points_readHeader a b h
          rw [hr] at this
          exact this
        · exact points_process a _ x addr b (x1, st) h (hp (addr, b) (List.mem_cons_self ..)) hr
      cases st with
      | some st => cases e; exact h1
      | none => exact run_points a M rest x1 r h1 (fun p hp' => hp p (List.mem_cons_of_mem _ hp')) e

/-! ## A connection -/

/-- A number of `n` bytes, little endian. -/
def bytesOf : Nat → Nat → List UInt8
  | 0, _ => []
  | n + 1, v => UInt8.ofNat (v % 256) :: bytesOf n (v / 256)

def exHeader (type hs ds : Nat) : List UInt8 := bytesOf 4 type ++ bytesOf 4 hs ++ bytesOf 4 ds ++ bytesOf 4 0

/-- Connect with first frame 5 and two bytes of data. -/
def exConnect : List UInt8 := exHeader tConnect 104 2 ++ List.replicate 64 0 ++ bytesOf 8 5 ++ List.replicate 16 0
def exInfo : List UInt8 := exHeader tMediaInfo 48 1 ++ bytesOf 4 0 ++ bytesOf 4 7 ++ bytesOf 4 90000 ++ List.replicate 20 0 ++ [9]
def exFrame (flags : Nat) (data : List UInt8) : List UInt8 :=
  exHeader tFrame 40 data.length ++ bytesOf 8 1 ++ bytesOf 8 2 ++ bytesOf 4 flags ++ bytesOf 4 0 ++ data

/-- The application counts events, takes them all, and skips one frame. -/
def exApp : App Nat where
  connected s _ := (s + 1, some (1, false))
  handle s _ := (s + 1, .ok)

/-- A frame that is skipped, one that is no key frame, and two that are taken, and a part of another. -/
def exStream : List UInt8 :=
  exConnect ++ [3, 4] ++ exInfo ++ exFrame 1 [1, 2, 3] ++ exFrame 0 [4] ++ exFrame 1 [5, 6] ++ exFrame 0 [7] ++ [1, 2]

/-- Cut after 50 and 104 bytes, and then into pieces of 7 bytes, five at a time next to each other in memory. -/
def exPieces : List (Nat × List UInt8) :=
  [(0, exStream.take 50), (50, (exStream.drop 50).take 54)] ++
    (List.range 40).filterMap fun i =>
      let p := (exStream.drop (104 + 7 * i)).take 7
      if p = [] then none else some (1000 + 7 * i + i / 5, p)

example : exPieces.flatMap (·.2) = exStream := by decide +kernel

instance piecesDec : (n : Nat) → (l : List (Nat × List UInt8)) → Decidable (Pieces n l)
  | _, [] => isTrue trivial
  | n, (_, b) :: l =>
    have : Decidable (Pieces (n + b.length) l) := piecesDec (n + b.length) l
    inferInstanceAs (Decidable (b ≠ [] ∧ (n < 104 → n + b.length ≤ 104) ∧ Pieces (n + b.length) l))

example : Pieces 0 exPieces := by decide +kernel

/-- What the application sees: the frames get the numbers 7 and 8. -/
example : (run exApp (create 0) exPieces).map (fun r => (r.1.log, r.1.app)) =
    some ([.connected exConnect, .connectData exConnect [3, 4], .mediaInfo ((exInfo.drop 16).take 32) [9] 1,
      .frame 7 1 2 1 0 [5, 6] 2, .frame 8 1 2 0 0 [7] 1], 5) := by decide +kernel

/-- Some nodes were given back, some were given to the application, with the addresses of the data. -/
example : (run exApp (create 0) exPieces).map (fun r => (r.1.freed.length, r.1.nextNode)) = some (7, 10) ∧
    (run exApp (create 0) exPieces).map (fun r => r.1.passed) =
    some [⟨2, 1051, [9]⟩, ⟨7, 1180, [5, 6]⟩, ⟨9, 1223, [7]⟩] := by decide +kernel

/-- Finding: a connect packet that is not the first is not refused, and 88 bytes of its own header are given
to the application as its data. -/
example : (run exApp (create 0) [(0, exConnect), (1000, [3, 4] ++ exConnect ++ [5, 6])]).map
      (fun r => (r.1.log.drop 2, r.2)) =
    some ([.connectData exConnect (exConnect.drop 16 ++ [5, 6])], none) := by decide +kernel

example : ConnectOk exConnect ∧ exConnect.length = 104 ∧ hsize exConnect + dsize exConnect = 106 := by
  unfold ConnectOk
  decide +kernel

/-- The packets behind the connect packet. -/
example : ∃ ps, Splits (exStream.drop 106) ps [1, 2] ∧ ps.length = 5 ∧ frames ps = 4 := by
  refine ⟨[⟨exInfo.take 16, exInfo.drop 16⟩, ⟨(exFrame 1 [1, 2, 3]).take 16, (exFrame 1 [1, 2, 3]).drop 16⟩,
    ⟨(exFrame 0 [4]).take 16, (exFrame 0 [4]).drop 16⟩, ⟨(exFrame 1 [5, 6]).take 16, (exFrame 1 [5, 6]).drop 16⟩,
    ⟨(exFrame 0 [7]).take 16, (exFrame 0 [7]).drop 16⟩], ⟨?_, ?_, Or.inr (Or.inl ?_)⟩, ?_, ?_⟩
  · decide +kernel
  · unfold Whole
    decide +kernel
  · decide
  · decide
  · decide +kernel

end Verif.KmpIn
