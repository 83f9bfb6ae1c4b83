import Verif.RtmpSend
import Verif.KmpRtmp

/-!
# KMP to RTMP: chunks

What the two ways to divide a message into chunks write, as pieces of the message with headers between them.
-/

namespace Verif.KmpRtmp

open Verif.RtmpSend (Pieces payload Buf)

/-- Pieces with a byte between them. -/
def chunked (hd : UInt8) : List Bytes → Bytes
  | [] => []
  | c :: cs => c ++ (cs.map (hd :: ·)).flatten

theorem chunked_snoc (hd : UInt8) {cs : List Bytes} (h : cs ≠ []) (c : Bytes) : chunked hd (cs ++ [c]) = chunked hd cs ++ hd :: c := by
  cases cs with
  | nil => exact absurd rfl h
  | cons d ds => simp [chunked]

theorem load_mid {a b c : Bytes} {p n : Nat} (hp : p = a.length) (hn : n = b.length) : load (a ++ (b ++ c)) p n = .ok b := by
  subst hp hn
  unfold load
  rw [if_pos (by simp)]
  simp

theorem store_mid {a b c bs : Bytes} {p : Nat} (hp : p = a.length) (hn : bs.length = b.length) : store (a ++ (b ++ c)) p bs = .ok (a ++ (bs ++ c)) := by
  subst hp
  unfold store
  rw [if_pos (by simp [hn]), hn]
  simp

/-- The loop that makes room for the headers. -/
theorem spread_eq (size csid : Nat) (pre : Bytes) : ∀ (i : Nat) (cs : List Bytes) (c g fin : Bytes), cs.length = i → g.length = i → (∀ x ∈ cs, x.length = size) →
    spread pre.length size csid i c.length (pre ++ (cs.flatten ++ (c ++ (g ++ fin)))) = .ok (pre ++ (chunked (again csid) (cs ++ [c]) ++ fin)) := by
  intro i
  induction i with
  | zero =>
    intro cs c g fin hc hg hs
    obtain rfl := List.length_eq_zero_iff.1 hc
    obtain rfl := List.length_eq_zero_iff.1 hg
    simp [spread, chunked]
  | succ i ih =>
    intro cs c g fin hc hg hs
    have hfl : cs.flatten.length = (i + 1) * size := by
      rw [List.length_flatten, List.map_congr_left (g := fun _ => size) hs, List.map_const', List.sum_replicate_nat, hc]
    have hne : cs ≠ [] := by
      intro h
      simp [h] at hc
    obtain ⟨ds, d, hds⟩ : ∃ ds d, cs = ds ++ [d] := ⟨_, _, (List.dropLast_concat_getLast hne).symm⟩
    have hd : d.length = size := hs d (by simp [hds])
    have hdl : ds.length = i := by
      rw [hds] at hc
      simpa using hc
    rw [spread]
    -- the chunk is read
    have e1 : pre ++ (cs.flatten ++ (c ++ (g ++ fin))) = (pre ++ cs.flatten) ++ (c ++ (g ++ fin)) := by simp
    rw [e1, load_mid (by simp [hfl]) rfl]
    show (store _ _ _ >>= _) = _
    -- the rest is a place before, the chunk, and what follows
    have hcg : (c ++ g).length = (i + 1) + c.length := by simp [hg]; omega
    have e2 : (pre ++ cs.flatten) ++ (c ++ (g ++ fin)) = (pre ++ (cs.flatten ++ (c ++ g).take (i + 1))) ++ ((c ++ g).drop (i + 1) ++ fin) := by
      have : c ++ g = (c ++ g).take (i + 1) ++ (c ++ g).drop (i + 1) := (List.take_append_drop _ _).symm
      calc (pre ++ cs.flatten) ++ (c ++ (g ++ fin)) = pre ++ (cs.flatten ++ ((c ++ g) ++ fin)) := by simp
        _ = pre ++ (cs.flatten ++ (((c ++ g).take (i + 1) ++ (c ++ g).drop (i + 1)) ++ fin)) := by rw [← this]
        _ = _ := by simp only [List.append_assoc]
    rw [e2, store_mid (by simp [hfl, hg]; omega) (by rw [List.length_drop]; omega)]
    show (store _ _ _ >>= _) = _
    have hgl : ((c ++ g).take (i + 1)).length = i + 1 := by rw [List.length_take]; omega
    obtain ⟨g', x, hgx⟩ : ∃ g' x, (c ++ g).take (i + 1) = g' ++ [x] := ⟨_, _, (List.dropLast_concat_getLast (by
      intro h
      rw [h] at hgl
      simp at hgl)).symm⟩
    have hg' : g'.length = i := by
      rw [hgx] at hgl
      simpa using hgl
    have e3 : (pre ++ (cs.flatten ++ (c ++ g).take (i + 1))) ++ (c ++ fin) = (pre ++ (cs.flatten ++ g')) ++ ([x] ++ (c ++ fin)) := by
      rw [hgx]; simp
    rw [e3, store_mid (b := [x]) (by simp [hfl, hg']; omega) (by simp)]
    show spread _ _ _ _ _ _ = _
    have e4 : (pre ++ (cs.flatten ++ g')) ++ ([again csid] ++ (c ++ fin)) = pre ++ (ds.flatten ++ (d ++ (g' ++ (again csid :: (c ++ fin))))) := by
      rw [hds]; simp
    rw [e4]
    have := ih ds d g' (again csid :: (c ++ fin)) hdl hg' (fun y hy => hs y (by simp [hds, hy]))
    rw [hd] at this
    rw [this, hds, chunked_snoc _ (by simp) c]
    simp

/-- A body that is not empty is some full pieces and a last one. -/
theorem pieces_of {size : Nat} (hs : 0 < size) : ∀ (n : Nat) (b : Bytes), b.length = n → b ≠ [] → ∃ (cs : List Bytes) (c : Bytes), b = cs.flatten ++ c ∧ c ≠ [] ∧ c.length ≤ size ∧
    (∀ x ∈ cs, x.length = size) ∧ cs.length = chunkCount b.length size - 1 ∧ 0 < chunkCount b.length size ∧
    c.length = b.length - (chunkCount b.length size - 1) * size := by
  intro n
  induction n using Nat.strongRecOn with
  | _ n ih =>
    intro b hb hne
    have hpos : 0 < b.length := List.length_pos_iff.2 hne
    rcases Nat.lt_or_ge size b.length with hlt | hge
    · obtain ⟨cs, c, h1, h2, h3, h4, h5, h6, h7⟩ := ih (b.drop size).length (by simp; omega) (b.drop size) rfl (by
        intro h
        have : (b.drop size).length = 0 := by rw [h]; rfl
        simp at this
        omega)
      have hcc : chunkCount b.length size = chunkCount (b.drop size).length size + 1 := by
        unfold chunkCount
        have : b.length + size - 1 = (b.drop size).length + size - 1 + size := by simp; omega
        rw [this, Nat.add_div_right _ hs]
      refine ⟨b.take size :: cs, c, ?_, h2, h3, ?_, ?_, by omega, ?_⟩
      · rw [List.flatten_cons, List.append_assoc, ← h1, List.take_append_drop]
      · intro x hx
        rcases List.mem_cons.1 hx with rfl | hx
        · simp; omega
        · exact h4 x hx
      · simp only [List.length_cons]
        omega
      · rw [h7, hcc, List.length_drop]
        obtain ⟨k, hk⟩ : ∃ k, chunkCount (b.drop size).length size = k + 1 := ⟨_, (Nat.succ_pred_eq_of_pos h6).symm⟩
        rw [List.length_drop] at hk
        rw [hk]
        simp only [Nat.add_sub_cancel]
        rw [Nat.add_mul]
        omega
    · have hcc : chunkCount b.length size = 1 := by
        unfold chunkCount
        refine Nat.div_eq_of_lt_le ?_ ?_ <;> omega
      exact ⟨[], b, by simp, hne, hge, by simp, by simp [hcc], by omega, by simp [hcc]⟩

/-- The number of bytes of the headers. -/
theorem chunked_len (hd : UInt8) : ∀ cs : List Bytes, cs ≠ [] → (chunked hd cs).length = cs.flatten.length + (cs.length - 1) := by
  intro cs h
  cases cs with
  | nil => exact absurd rfl h
  | cons c cs =>
    have : ∀ l : List Bytes, ((l.map (hd :: ·)).flatten).length = l.flatten.length + l.length := by
      intro l
      induction l with
      | nil => rfl
      | cons a l ih => simp only [List.map_cons, List.flatten_cons, List.length_append, List.length_cons, ih]; omega
    simp only [chunked, List.length_append, this, List.flatten_cons, List.length_cons]
    omega

/-- The pieces of a message of chunks of this size. -/
def Cut (size : Nat) (b : Bytes) (cs : List Bytes) : Prop := cs.flatten = b ∧ cs ≠ [] ∧ Pieces size (cs.map (⟨0, ·⟩))

theorem pieces_map {size : Nat} : ∀ (cs : List Bytes) (c : Bytes), (∀ x ∈ cs, x.length = size) → c ≠ [] → c.length ≤ size →
    Pieces size ((cs ++ [c]).map (⟨0, ·⟩)) := by
  intro cs
  induction cs with
  | nil => intro c _ _ h; exact h
  | cons d ds ih =>
    intro c h1 h2 h3
    have := ih c (fun x hx => h1 x (by simp [hx])) h2 h3
    obtain ⟨y, ys, hy⟩ : ∃ y ys, ds ++ [c] = y :: ys := by
      cases ds with
      | nil => exact ⟨_, _, rfl⟩
      | cons a as => exact ⟨_, _, rfl⟩
    rw [List.cons_append, hy, List.map_cons, List.map_cons]
    refine ⟨h1 d (by simp), by rw [hy] at this; exact this, ?_⟩
    intro h
    have h' : payload ((ds ++ [c]).map (fun x => (⟨0, x⟩ : Buf))) = [] := by rw [hy]; exact h
    have : payload ((ds ++ [c]).map (fun x => (⟨0, x⟩ : Buf))) = ds.flatten ++ c := by
      simp [payload, Function.comp_def]
    rw [this] at h'
    exact h2 (List.append_eq_nil_iff.1 h').2

/-- `ngx_kmp_rtmp_encoder_add_chunk_headers` puts a header between the pieces, and uses as many bytes as were computed. -/
theorem addChunks_eq {size : Nat} (csid : Nat) (hs : 0 < size) {body : Bytes} (hne : body ≠ []) :
    ∃ cs, Cut size body cs ∧ (chunked (again csid) cs).length = body.length + (chunkCount body.length size - 1) ∧
      ∀ pre g fin : Bytes, g.length = chunkCount body.length size - 1 → addChunks (pre ++ (body ++ (g ++ fin))) pre.length body.length size csid =
        .ok (pre ++ (chunked (again csid) cs ++ fin), pre.length + body.length + (chunkCount body.length size - 1)) := by
  obtain ⟨cs, c, h1, h2, h3, h4, h5, h6, h7⟩ := pieces_of hs _ body rfl hne
  refine ⟨cs ++ [c], ⟨by simp [h1], by simp, pieces_map cs c h4 h2 h3⟩, ?_, ?_⟩
  · rw [chunked_len _ _ (by simp)]
    have : (cs ++ [c]).flatten = body := by rw [h1]; simp
    rw [this]
    simp only [List.length_append, List.length_singleton]
    omega
  · intro pre g fin hg
    unfold addChunks
    rw [if_neg (by omega), ← h7]
    have e : pre ++ (body ++ (g ++ fin)) = pre ++ (cs.flatten ++ (c ++ (g ++ fin))) := by
      conv => lhs; rw [h1]
      simp
    rw [e, spread_eq size csid pre _ cs c g fin h5 hg h4]
    rfl

/-- The loop over the data of a frame: `left` bytes, and then full chunks. -/
theorem frameLoop_eq (csid : Nat) {chunk : Nat} (hs : 0 < chunk) : ∀ (fuel left : Nat) (d : Bytes) (next : List Bytes),
    d.length + next.flatten.length + 2 * next.length + (if left = 0 then 1 else 0) < fuel →
    ∃ p ps, frameLoop csid chunk fuel left d next = .ok (chunked (again csid) (p :: ps)) ∧ (p :: ps).flatten = d ++ next.flatten ∧ p.length ≤ left ∧
      (ps ≠ [] → p.length = left ∧ Pieces chunk (ps.map (⟨0, ·⟩)) ∧ ps.flatten ≠ []) := by
  intro fuel
  induction fuel with
  | zero => intro left d next h; omega
  | succ fuel ih =>
    intro left d next h
    rw [frameLoop.eq_def]
    simp only []
    by_cases hlt : left < d.length
    · rw [if_pos hlt]
      obtain ⟨p, ps, h1, h2, h3, h4⟩ := ih chunk (d.drop left) next (by
        rw [List.length_drop, if_neg (by omega)]
        split at h <;> omega)
      refine ⟨d.take left, p :: ps, ?_, ?_, by rw [List.length_take]; omega, fun _ => ⟨by rw [List.length_take]; omega, ?_, ?_⟩⟩
      · rw [h1, Res.map_ok]
        simp [chunked]
      · rw [List.flatten_cons, h2, ← List.append_assoc, List.take_append_drop]
      · cases ps with
        | nil => exact h3
        | cons q qs =>
          obtain ⟨k1, k2, k3⟩ := h4 (by simp)
          refine ⟨k1, k2, ?_⟩
          have : payload (List.map (fun x => (⟨0, x⟩ : Buf)) (q :: qs)) = (q :: qs).flatten := by simp [payload, Function.comp_def]
          exact this ▸ k3
      · rw [h2]
        intro h0
        have := (List.append_eq_nil_iff.1 h0).1
        have : (d.drop left).length = 0 := by rw [this]; rfl
        rw [List.length_drop] at this
        omega
    · rw [if_neg hlt]
      cases next with
      | nil => exact ⟨d, [], by simp [chunked], by simp, by omega, by simp⟩
      | cons x xs =>
        simp only []
        obtain ⟨p, ps, h1, h2, h3, h4⟩ := ih (left - d.length) x xs (by
          simp only [List.flatten_cons, List.length_append, List.length_cons] at h
          repeat' split at h
          all_goals split <;> omega)
        refine ⟨d ++ p, ps, ?_, ?_, by rw [List.length_append]; omega, fun hne => ?_⟩
        · rw [h1, Res.map_ok]
          simp [chunked]
        · rw [List.flatten_cons] at h2 ⊢
          rw [List.append_assoc, h2]
          simp
        · obtain ⟨k1, k2, k3⟩ := h4 hne
          exact ⟨by rw [List.length_append]; omega, k2, k3⟩

/-- With something in front of the data that counts for the first chunk. -/
theorem frame_cut {chunk : Nat} {tag d : Bytes} {p : Bytes} {ps : List Bytes} (h1 : (p :: ps).flatten = d) (h2 : tag.length + p.length ≤ chunk)
    (h3 : ps ≠ [] → tag.length + p.length = chunk ∧ Pieces chunk (ps.map (⟨0, ·⟩)) ∧ ps.flatten ≠ []) : Cut chunk (tag ++ d) ((tag ++ p) :: ps) := by
  refine ⟨by rw [← h1]; simp, by simp, ?_⟩
  cases ps with
  | nil =>
    show (tag ++ p).length ≤ chunk
    rw [List.length_append]
    exact h2
  | cons q qs =>
    obtain ⟨k1, k2, k3⟩ := h3 (by simp)
    refine ⟨by rw [List.length_append]; exact k1, k2, ?_⟩
    have : payload (List.map (fun x => (⟨0, x⟩ : Buf)) (q :: qs)) = (q :: qs).flatten := by simp [payload, Function.comp_def]
    exact this ▸ k3

end Verif.KmpRtmp
