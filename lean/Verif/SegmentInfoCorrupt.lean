import Verif.SegmentInfoProps
import Verif.SegmentListCorrupt

/-!
# C39: restoring from any bytes
-/

namespace Verif.SegmentInfo

open Verif.SegmentList (Tree Scope num num_lt add32 setLast setLast_concat getLast_concat)

theorem decode_bound : ∀ (l : List UInt8), ∀ e ∈ decode l, e.idx < 2 ^ 32 ∧ e.bitrate < 2 ^ 32
  | a :: b :: c :: d :: p :: q :: r :: s :: rest => by
    intro e he
    rw [decode] at he
    rcases List.mem_cons.1 he with rfl | he
    · have h1 : num [a, b, c, d] < 256 ^ 4 := num_lt _
      have h2 : num [p, q, r, s] < 256 ^ 4 := num_lt _
      have e : 256 ^ 4 = 2 ^ 32 := by decide
      rw [e] at h1 h2
      exact ⟨h1, h2⟩
    · exact decode_bound rest e he
  | [] => by simp [decode]
  | [_] => by simp [decode]
  | [_, _] => by simp [decode]
  | [_, _, _] => by simp [decode]
  | [_, _, _, _] => by simp [decode]
  | [_, _, _, _, _] => by simp [decode]
  | [_, _, _, _, _, _] => by simp [decode]
  | [_, _, _, _, _, _, _] => by simp [decode]

theorem decode_ne {l : List UInt8} (h : 8 ≤ l.length) : decode l ≠ [] := by
  match l, h with
  | _ :: _ :: _ :: _ :: _ :: _ :: _ :: _ :: _, _ => simp [decode]

/-- Copying elements to a node, whatever they are. -/
theorem fill_any {max : Nat} (hm : max < invalid) (keep : Bool) : ∀ (es : List Elt) (room min : Nat) (first : Bool) (p : List Elt),
    Sorted p → (∀ e ∈ p, e.idx < min) → (keep = true → first = true → p = []) →
    fill max keep room min first es = .err ∨
    ∃ a r m f, fill max keep room min first es = .ok (a, r, m, f) ∧ Sorted (p ++ a) ∧ (∀ e ∈ p ++ a, e.idx < m) ∧
      a.length ≤ room ∧ (∀ e ∈ a, e ∈ es ∧ e.idx ≤ max) ∧ (∀ e ∈ r, e ∈ es) ∧ (0 < room → es ≠ [] → r.length < es.length ∧ f = false ∧
        (keep = true → first = true → a ≠ [])) ∧ (room = 0 ∨ es = [] → f = first ∧ m = min ∧ r = es ∧ a = [])
  | [], room, min, first, p, hs, hp, _ => by
    right
    exact ⟨[], [], min, first, by simp [fill], by simpa using hs, by simpa using hp, by simp, by simp, by simp, by simp, by simp⟩
  | e :: es, room, min, first, p, hs, hp, hk => by
    rw [fill]
    by_cases hr : room = 0
    · right
      rw [if_pos hr]
      exact ⟨[], _, min, first, rfl, by simpa using hs, by simpa using hp, by simp, by simp, by simp, by omega, by simp⟩
    · rw [if_neg hr]
      by_cases h1 : e.idx < min ∧ first = false
      · rw [if_pos h1]; exact .inl rfl
      · rw [if_neg h1]
        by_cases h2 : e.idx < min ∧ keep = false
        · rw [if_pos h2]
          rcases fill_any hm keep es room min false p hs hp (fun _ h => by cases h) with h3 | ⟨a, r, m, f, e1, e2, e3, e4, e5, e6, e7, e8⟩
          · exact .inl h3
          · right
            refine ⟨a, r, m, f, e1, e2, e3, e4, fun x hx => ⟨by simp [(e5 x hx).1], (e5 x hx).2⟩, fun x hx => by simp [e6 x hx], fun h4 _ => ?_, fun h4 => ?_⟩
            · by_cases hn : es = []
              · obtain ⟨q1, q2, q3, q4⟩ := e8 (.inr hn)
                refine ⟨by rw [q3]; simp, q1, fun h5 => ?_⟩
                rw [h2.2] at h5; cases h5
              · obtain ⟨q1, q2, q3⟩ := e7 h4 hn
                refine ⟨by simp; omega, q2, fun h5 => ?_⟩
                rw [h2.2] at h5; cases h5
            · rcases h4 with h4 | h4
              · exact absurd h4 hr
              · cases h4
        · rw [if_neg h2]
          by_cases h3 : e.idx > max
          · rw [if_pos h3]; exact .inl rfl
          · rw [if_neg h3]
            have hadd : add32 e.idx 1 = e.idx + 1 := by
              unfold invalid at hm; unfold add32; rw [if_pos (by omega)]
            rw [hadd]
            have hps : Sorted (p ++ [e]) ∧ ∀ x ∈ p ++ [e], x.idx < e.idx + 1 := by
              by_cases h4 : e.idx < min
              · have hkk : keep = true := by cases hkp : keep with
                  | true => rfl
                  | false => exact absurd ⟨h4, hkp⟩ h2
                have hff : first = true := by cases hkp : first with
                  | true => rfl
                  | false => exact absurd ⟨h4, hkp⟩ h1
                rw [hk hkk hff]
                simp [Sorted]
              · refine ⟨sorted_snoc hs (fun x hx => by have := hp x hx; omega), fun x hx => ?_⟩
                rcases List.mem_append.1 hx with hx | hx
                · have := hp x hx; omega
                · simp at hx; rw [hx]; omega
            rcases fill_any hm keep es (room - 1) (e.idx + 1) false (p ++ [e]) hps.1 hps.2 (fun _ h => by cases h) with
              h5 | ⟨a, r, m, f, e1, e2, e3, e4, e5, e6, e7, e8⟩
            · left; rw [h5]; rfl
            · right
              rw [List.append_assoc] at e2 e3
              refine ⟨e :: a, r, m, f, by rw [e1]; rfl, e2, e3, by simp; omega, ?_, fun x hx => by simp [e6 x hx], fun _ _ => ⟨?_, ?_, fun _ _ => by simp⟩, fun h4 => ?_⟩
              · intro x hx
                rcases List.mem_cons.1 hx with rfl | hx
                · exact ⟨by simp, by omega⟩
                · exact ⟨by simp [(e5 x hx).1], (e5 x hx).2⟩
              · by_cases hn : 0 < room - 1 ∧ es ≠ []
                · have := (e7 hn.1 hn.2).1; simp; omega
                · rw [(e8 (by rcases Nat.eq_zero_or_pos (room - 1) with h | h
                              · exact .inl h
                              · right; rcases Classical.em (es = []) with h6 | h6
                                · exact h6
                                · exact absurd ⟨h, h6⟩ hn)).2.2.1]; simp
              · by_cases hn : 0 < room - 1 ∧ es ≠ []
                · exact (e7 hn.1 hn.2).2.1
                · exact (e8 (by rcases Nat.eq_zero_or_pos (room - 1) with h | h
                                · exact .inl h
                                · right; rcases Classical.em (es = []) with h6 | h6
                                  · exact h6
                                  · exact absurd ⟨h, h6⟩ hn)).1
              · rcases h4 with h4 | h4
                · exact absurd h4 hr
                · cases h4

theorem newNodes_any {max : Nat} (hm : max < invalid) : ∀ (fuel : Nat) (es : List Elt) (alloc : Nat) (ns : List Node) (min : Nat) (first : Bool),
    es.length ≤ fuel → (∀ e ∈ es, e.bitrate < 2 ^ 32) → WF ns → (∀ e ∈ elts ns, e.idx < min) → (ns = [] → first = true) →
    (ns = [] → es ≠ []) →
    newNodes max fuel alloc ns min first es = .err ∨
    ∃ ns', newNodes max fuel alloc ns min first es = .ok ns' ∧ WF ns' ∧ ns' ≠ []
  | fuel, [], alloc, ns, min, first, _, _, hw, _, _, hne => by
    right
    refine ⟨ns, by cases fuel <;> simp [newNodes], hw, fun h => hne h rfl⟩
  | 0, _ :: _, _, _, _, _, h, _, _, _, _, _ => by simp at h
  | fuel + 1, e :: es, alloc, ns, min, first, hf, hb, hw, hmin, hfirst, hne => by
    rw [newNodes]
    · by_cases ha : alloc = 0
      · rw [if_pos ha]; exact .inl rfl
      · rw [if_neg ha]
        rcases fill_any hm ns.isEmpty (e :: es) maxElts min first (elts ns) hw.sorted hmin (by
            intro h1 _; rw [List.isEmpty_iff.1 h1]; rfl) with h5 | ⟨a, r, m, f, e1, e2, e3, e4, e5, e6, e7, e8⟩
        · left; rw [h5]; rfl
        · rw [e1, Res.bind_ok]
          obtain ⟨q1, q2, q3⟩ := e7 (by decide) (by simp)
          have hrb : ∀ x ∈ r, x.bitrate < 2 ^ 32 := fun x hx => hb x (e6 x hx)
          cases a with
          | nil =>
            dsimp only
            have hnn : ns ≠ [] := by
              rintro rfl
              exact q3 rfl (hfirst rfl) rfl
            refine newNodes_any hm fuel r (alloc - 1) ns m f (by simp at q1 hf ⊢; omega) hrb hw ?_ (fun h => absurd h hnn) (fun h => absurd h hnn)
            simpa using e3
          | cons x a =>
            dsimp only
            have hfl : elts (ns ++ [{ key := x.idx, elts := x :: a }]) = elts ns ++ (x :: a) := by rw [elts_append]; simp [elts]
            refine newNodes_any hm fuel r (alloc - 1) _ m f (by simp at q1 hf ⊢; omega) hrb ?_ (by rw [hfl]; exact e3) (fun h => by simp at h) (fun h => by simp at h)
            refine ⟨?_, by rw [hfl]; exact e2, ?_, ?_⟩
            · intro n hn
              rcases List.mem_append.1 hn with hn | hn
              · exact hw.node n hn
              · simp at hn; rw [hn]; exact ⟨⟨x, a, rfl, rfl⟩, e4⟩
            · rw [hfl]; intro y hy
              rcases List.mem_append.1 hy with hy | hy
              · exact hw.idx y hy
              · have := (e5 y hy).2; omega
            · rw [hfl]; intro y hy
              rcases List.mem_append.1 hy with hy | hy
              · exact hw.bitrate y hy
              · exact hb y (e5 y hy).1
    · simp

/-- C39. Whatever the bytes, reading a block either fails or leaves a change log with segments in order. -/
theorem read_any {s : Track} (hw : WF s.nodes) {sc : Scope} (hm : sc.max < invalid) (alloc : Nat) (bytes : List UInt8) (hdr : Option Nat) :
    readIndex s sc alloc bytes hdr = .err ∨
    ∃ r, readIndex s sc alloc bytes hdr = .ok r ∧ WF r.nodes ∧ r.initial = s.initial ∧ r.lastIdx = s.lastIdx := by
  unfold readIndex
  cases hdr with
  | none => exact .inl rfl
  | some k =>
    dsimp only
    by_cases h1 : bytes.length < k
    · rw [if_pos h1]; exact .inl rfl
    · rw [if_neg h1]
      by_cases h2 : (bytes.drop k).length < 8
      · rw [if_pos h2]; exact .inr ⟨s, rfl, hw, rfl, rfl⟩
      · rw [if_neg h2]
        have hne := decode_ne (l := bytes.drop k) (by omega)
        have hb := decode_bound (bytes.drop k)
        generalize decode (bytes.drop k) = es at hne hb
        have hbb : ∀ e ∈ es, e.bitrate < 2 ^ 32 := fun e he => (hb e he).2
        -- the end
        have fin : ∀ ns, WF ns → ns ≠ [] → ∃ r, setBitrate s ns = .ok r ∧ WF r.nodes ∧ r.initial = s.initial ∧ r.lastIdx = s.lastIdx := by
          intro ns hn hnn
          cases hl : ns.getLast? with
          | none => exact absurd (List.getLast?_eq_none_iff.1 hl) hnn
          | some n =>
            obtain ⟨e, e1, e2⟩ := elts_last hn.node hl
            exact ⟨{ s with nodes := ns, lastBitrate := e.bitrate * 100 % 2 ^ 32 }, by unfold setBitrate; rw [hl]; dsimp only; rw [e1], hn, rfl, rfl⟩
        unfold readElts readLast
        cases hl : s.nodes.getLast? with
        | none =>
          have hnil := List.getLast?_eq_none_iff.1 hl
          simp only [Res.bind_ok]
          rcases newNodes_any hm es.length es alloc s.nodes sc.min true (Nat.le_refl _) hbb hw (by rw [hnil]; simp [elts]) (fun _ => rfl)
            (fun _ => hne) with h3 | ⟨ns', e1, e2, e3⟩
          · left; rw [h3]; rfl
          · right; rw [e1, Res.bind_ok]; exact fin ns' e2 e3
        | some n =>
          obtain ⟨l, el⟩ := getLast_concat hl
          obtain ⟨d, d1, d2⟩ := elts_last hw.node hl
          dsimp only
          rw [d1]
          dsimp only
          by_cases h3 : d.idx ≥ sc.min
          · rw [if_pos h3]; exact .inl rfl
          · rw [if_neg h3]
            have hmin : ∀ e ∈ elts s.nodes, e.idx < sc.min := by
              intro e he
              obtain ⟨q, eq⟩ := getLast_concat d2
              rw [eq] at he
              rcases List.mem_append.1 he with he | he
              · have hs := hw.sorted
                rw [eq] at hs
                have := (List.pairwise_append.1 hs).2.2 e he d (by simp); omega
              · simp at he; rw [he]; omega
            have hno := hw.node n (by rw [el]; simp)
            rcases fill_any hm false es (maxElts - n.elts.length) sc.min true (elts s.nodes) hw.sorted hmin (fun h => by cases h) with
              h5 | ⟨a, r, m, f, e1, e2, e3, e4, e5, e6, e7, e8⟩
            · left; rw [h5]; rfl
            · rw [e1]
              simp only [Res.bind_ok]
              rw [el, setLast_concat]
              have hroom := hno.room
              have hfl : elts (l ++ [{ n with elts := n.elts ++ a }]) = elts s.nodes ++ a := by
                rw [el, elts_append, elts_append]; simp [elts]
              have hwf : WF (l ++ [{ n with elts := n.elts ++ a }]) := by
                refine ⟨?_, by rw [hfl]; exact e2, ?_, ?_⟩
                · intro x hx
                  rcases List.mem_append.1 hx with hx | hx
                  · exact hw.node x (by rw [el]; simp [hx])
                  · simp at hx
                    obtain ⟨z, zs, q1, q2⟩ := hno.head
                    rw [hx]
                    exact ⟨⟨z, zs ++ a, by simp [q1], q2⟩, by simp; omega⟩
                · rw [hfl]; intro y hy
                  rcases List.mem_append.1 hy with hy | hy
                  · exact hw.idx y hy
                  · have := (e5 y hy).2; omega
                · rw [hfl]; intro y hy
                  rcases List.mem_append.1 hy with hy | hy
                  · exact hw.bitrate y hy
                  · exact hbb y (e5 y hy).1
              rcases newNodes_any hm r.length r alloc (l ++ [{ n with elts := n.elts ++ a }]) m f (Nat.le_refl _)
                (fun x hx => hbb x (e6 x hx)) hwf (by rw [hfl]; exact e3) (fun h => by simp at h) (fun h => by simp at h) with
                h6 | ⟨ns', q1, q2, q3⟩
              · left; rw [h6]; rfl
              · right; rw [q1, Res.bind_ok]; exact fin ns' q2 q3

/-- C39. After reading any bytes the query is answered. -/
theorem query_after_any {c : Conf} (hc : ConfOk c) {s : Track} {H : List Rec} {m : Nat} (h : Reach c s H m) {sc : Scope}
    (hm : sc.max < invalid) {alloc : Nat} {bytes : List UInt8} {hdr : Option Nat} {r : Track}
    (hr : readIndex s sc alloc bytes hdr = .ok r) {t : Tree} (ht : TreeOf r.nodes t) {start fin : Nat} (hlt : start < fin) :
    ∃ b, segExists r t start fin = .ok b := by
  have hi := reach_inv hc h
  rcases read_any hi.wf hm alloc bytes hdr with h1 | ⟨r', e1, e2, e3, _⟩
  · rw [h1] at hr; cases hr
  · rw [hr] at e1
    injection e1 with e1
    subst e1
    by_cases h0 : r.initial = 0
    · obtain ⟨b, e, _⟩ := exists_spec e2 ht h0 hlt
      exact ⟨b, e⟩
    · exact ⟨true, by unfold segExists; rw [if_pos h0]⟩

end Verif.SegmentInfo
