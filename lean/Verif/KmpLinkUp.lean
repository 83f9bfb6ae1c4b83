import Verif.KmpOutProps

/-!
# What an event of a KMP sender does to its first upstream (lemmas for C23)
-/

namespace Verif.KmpOut

open Verif.KmpIn (field Packet frames)
open Verif.KmpInAck (packet)

/-! ## Events that do not touch the acked position -/

/-- Nothing differs that an ack or a new connection would change. -/
structure Same (u u' : Up) : Prop where
  policy : u'.policy = u.policy
  frame  : u'.frame = u.frame
  recv   : u'.recv = u.recv
  data   : u'.connectData = u.connectData
  conn   : u'.conn = true → u.conn = true

theorem Same.refl (u : Up) : Same u u := ⟨rfl, rfl, rfl, rfl, id⟩

theorem Same.trans {u v w : Up} (h : Same u v) (h' : Same v w) : Same u w :=
  ⟨h'.policy.trans h.policy, h'.frame.trans h.frame, h'.recv.trans h.recv, h'.data.trans h.data, fun hc => h.conn (h'.conn hc)⟩

/-- The same upstreams in the same places. -/
def SameUps (l l' : List Up) : Prop :=
  l'.length = l.length ∧ ∀ (i : Nat) (u' : Up), l'[i]? = some u' → ∃ u, l[i]? = some u ∧ Same u u'

theorem SameUps.refl (l : List Up) : SameUps l l := ⟨rfl, fun _ u h => ⟨u, h, Same.refl u⟩⟩

theorem SameUps.trans {l m n : List Up} (h : SameUps l m) (h' : SameUps m n) : SameUps l n :=
  ⟨h'.1.trans h.1, fun i u hu => by
    obtain ⟨v, hv, h1⟩ := h'.2 i u hu
    obtain ⟨w, hw, h2⟩ := h.2 i v hv
    exact ⟨w, hw, h2.trans h1⟩⟩

theorem SameUps.cons {u u' : Up} {l l' : List Up} (h : Same u u') (hl : SameUps l l') : SameUps (u :: l) (u' :: l') :=
  ⟨by rw [List.length_cons, List.length_cons, hl.1], fun i v hv => by
    cases i with
    | zero =>
      rw [List.getElem?_cons_zero] at hv
      injection hv with hv
      exact ⟨u, by rw [List.getElem?_cons_zero], by rw [← hv]; exact h⟩
    | succ i => rw [List.getElem?_cons_succ] at hv ⊢; exact hl.2 i v hv⟩

/-- Every upstream has the last acked policy. -/
def AllAcked (l : List Up) : Prop := ∀ u ∈ l, u.policy = .lastAcked

theorem SameUps.allAcked {l l' : List Up} (h : SameUps l l') (ha : AllAcked l) : AllAcked l' := by
  intro u hu
  obtain ⟨i, hi⟩ := List.getElem?_of_mem hu
  obtain ⟨v, hv, hs⟩ := h.2 i u hi
  rw [hs.policy]
  exact ha v (List.mem_of_getElem? hv)

theorem same_append {t : Track} {u u' : Up} (hp : u.policy = .lastAcked) (e : appendBuffer t u = .ok u') : Same u u' := by
  unfold appendBuffer at e
  split at e
  · injection e with e; rw [← e]; exact ⟨rfl, rfl, rfl, rfl, id⟩
  · rw [hp, if_neg (fun h => nomatch h)] at e
    injection e with e; rw [← e]; exact Same.refl u

theorem same_republish {t : Track} {u u' : Up} {allowed : Bool} (hp : u.policy = .lastAcked)
    (e : republish t u allowed = .ok (.ok, u')) : Same u u' := by
  unfold republish at e
  split at e
  · simp at e
  · dsimp only at e
    split at e
    · injection e with e; injection e with _ e; rw [← e]; exact ⟨rfl, rfl, rfl, rfl, fun h => nomatch h⟩
    · rw [hp, if_neg (fun h => nomatch h)] at e
      injection e with e; injection e with _ e; rw [← e]; exact ⟨hp.symm, rfl, rfl, rfl, fun h => nomatch h⟩

theorem same_chain {t : Track} {u u' : Up} {io : Io} {ok : Bool} (hp : u.policy = .lastAcked)
    (e : sendChain t u io = .ok (ok, u')) : Same u u' := by
  unfold sendChain at e
  split at e
  · split at e
    · injection e with e; injection e with _ e; rw [← e]; exact Same.refl u
    · split at e
      · dsimp only at e
        rw [if_pos hp] at e
        injection e with e; injection e with _ e; rw [← e]; exact ⟨rfl, rfl, rfl, rfl, id⟩
      · exact nomatch e
      · exact nomatch e
  · injection e with e; injection e with _ e; rw [← e]; exact Same.refl u

theorem same_error {t : Track} {u u' : Up} {allowed : Bool} (hp : u.policy = .lastAcked)
    (e : upError t u allowed = .ok (some u')) : Same u u' := by
  unfold upError at e
  split at e
  · next h => injection e with e; injection e with e; rw [← e]; exact same_republish hp h
  · simp at e
  · exact nomatch e
  · exact nomatch e

theorem same_buffered {t : Track} {u u' : Up} (e : sendBuffered t u = .ok u') : Same u u' := by
  unfold sendBuffered at e
  split at e
  · exact nomatch e
  · injection e with e; rw [← e]; exact ⟨rfl, rfl, rfl, rfl, id⟩

theorem same_write {t : Track} {u u' : Up} {io : Io} {allowed : Bool} (hp : u.policy = .lastAcked)
    (e : writeHandler t u io allowed = .ok (some u')) : Same u u' := by
  unfold writeHandler at e
  split at e
  · next u1 h1 =>
    have hs1 : Same u u1 := by
      split at h1
      · injection h1 with h1; rw [← h1]; exact Same.refl u
      · exact same_buffered h1
    have hp1 : u1.policy = .lastAcked := by rw [hs1.policy]; exact hp
    split at e
    · next u2 h2 => injection e with e; injection e with e; rw [← e]; exact hs1.trans (same_chain hp1 h2)
    · next u2 h2 =>
      have hs2 := same_chain hp1 h2
      exact (hs1.trans hs2).trans (same_error (by rw [hs2.policy]; exact hp1) e)
    · exact nomatch e
    · exact nomatch e
  · exact nomatch e
  · exact nomatch e

theorem same_send {t : Track} {u u' : Up} {io : Io} {allowed : Bool} (hp : u.policy = .lastAcked)
    (e : sendUp t u io allowed = .ok u') : Same u u' := by
  unfold sendUp at e
  split at e
  · split at e
    · next u2 h2 => injection e with e; rw [← e]; exact same_chain hp h2
    · next u2 h2 =>
      have hs2 := same_chain hp h2
      split at e
      · next u3 h3 => injection e with e; rw [← e]; exact hs2.trans (same_republish (by rw [hs2.policy]; exact hp) h3)
      · exact nomatch e
      · exact nomatch e
      · exact nomatch e
    · exact nomatch e
    · exact nomatch e
  · injection e with e; rw [← e]; exact Same.refl u

theorem same_each {t : Track} : ∀ (l l' : List Up), AllAcked l → each (appendBuffer t) l = .ok l' → SameUps l l'
  | [], l', _, e => by
    unfold each at e
    injection e with e
    rw [← e]; exact SameUps.refl _
  | u :: us, l', ha, e => by
    unfold each at e
    split at e
    · next u1 h1 =>
      split at e
      · next us1 h2 =>
        injection e with e
        rw [← e]
        exact SameUps.cons (same_append (ha u (List.mem_cons_self ..)) h1)
          (same_each us us1 (fun w hw => ha w (List.mem_cons_of_mem _ hw)) h2)
      · exact nomatch e
      · exact nomatch e
    · exact nomatch e
    · exact nomatch e

theorem same_appendAll {t t' : Track} (ha : AllAcked t.ups) (e : appendAll t = .ok t') : SameUps t.ups t'.ups := by
  unfold appendAll at e
  split at e
  · injection e with e; rw [← e]; exact SameUps.refl _
  · split at e
    · next us h1 =>
      have hs := same_each _ _ ha h1
      dsimp only at e
      split at e
      · injection e with e; rw [← e]; exact hs
      · injection e with e; rw [← e]; exact hs
    · exact nomatch e
    · exact nomatch e

theorem same_sendEach {t : Track} {allowed : Bool} : ∀ (l : List Up) (ios : List (Option Io)) (l' : List Up), AllAcked l →
    sendEach t allowed l ios = .ok l' → SameUps l l'
  | [], ios, l', _, e => by
    unfold sendEach at e
    injection e with e
    rw [← e]; exact SameUps.refl _
  | u :: us, [], l', _, e => by
    unfold sendEach at e
    injection e with e
    rw [← e]; exact SameUps.refl _
  | u :: us, io :: ios, l', ha, e => by
    unfold sendEach at e
    split at e
    · next u1 h1 =>
      have hs : Same u u1 := by
        unfold sendOne at h1
        split at h1
        · exact same_send (ha u (List.mem_cons_self ..)) h1
        · injection h1 with h1; rw [← h1]; exact Same.refl u
      split at e
      · next us1 h2 =>
        injection e with e
        rw [← e]
        exact SameUps.cons hs (same_sendEach us ios us1 (fun w hw => ha w (List.mem_cons_of_mem _ hw)) h2)
      · exact nomatch e
      · exact nomatch e
    · exact nomatch e
    · exact nomatch e

theorem same_sendAll {t t' : Track} {allowed : Bool} {ios : List (Option Io)} (ha : AllAcked t.ups)
    (e : sendAll t allowed ios = .ok t') : SameUps t.ups t'.ups := by
  unfold sendAll at e
  split at e
  · injection e with e; rw [← e]; exact SameUps.refl _
  · split at e
    · next us h1 => injection e with e; rw [← e]; exact same_sendEach _ _ _ ha h1
    · exact nomatch e
    · exact nomatch e

theorem same_writeLoop : ∀ (n : Nat) (t t' : Track) (data : List UInt8), AllAcked t.ups → writeLoop n t data = .ok t' →
    SameUps t.ups t'.ups
  | 0, _, _, _, _, e => by unfold writeLoop at e; exact nomatch e
  | n + 1, t, t', data, ha, e => by
    unfold writeLoop at e
    split at e
    · injection e with e; rw [← e]; exact SameUps.refl _
    · dsimp only at e
      generalize h1 : (if min ((if t.nodes.isEmpty = true then 0 else t.cap) - t.last) data.length = 0 then t
        else copyIn t (data.take (min ((if t.nodes.isEmpty = true then 0 else t.cap) - t.last) data.length))) = t1 at e
      have hu : t1.ups = t.ups := by
        rw [← h1]
        generalize min ((if t.nodes.isEmpty = true then 0 else t.cap) - t.last) data.length = m
        split <;> rfl
      generalize hc : (if t.nodes.isEmpty = true then 0 else t.cap) = c at e
      have ha1 : AllAcked t1.ups := by rw [hu]; exact ha
      rw [← hu]
      split at e
      · split at e
        · next t2 h2 =>
          have hs := same_appendAll ha1 h2
          exact hs.trans (same_writeLoop n (newNode t2) t' _ (hs.allAcked ha1) e)
        · exact nomatch e
        · exact nomatch e
      · exact same_writeLoop n t1 t' _ ha1 e

theorem same_writeBufs : ∀ (bufs : List (List UInt8)) (t t' : Track), AllAcked t.ups → writeBufs t bufs = .ok t' →
    SameUps t.ups t'.ups
  | [], t, t', _, e => by
    unfold writeBufs at e
    injection e with e; rw [← e]; exact SameUps.refl _
  | b :: bs, t, t', ha, e => by
    unfold writeBufs at e
    split at e
    · next t1 h1 =>
      have hs := same_writeLoop _ _ _ _ ha h1
      exact hs.trans (same_writeBufs bs t1 t' (hs.allAcked ha) e)
    · exact nomatch e
    · exact nomatch e

theorem same_writeChain {t t' : Track} {e : Env} {bufs : List (List UInt8)} (ha : AllAcked t.ups) (hw : e.wm = [])
    (h : writeChain t e bufs = .ok t') : SameUps t.ups t'.ups := by
  unfold writeChain at h
  rw [hw] at h
  unfold watermark at h
  dsimp only at h
  split at h
  · next t1 h1 =>
    have hs := same_writeBufs _ _ _ ha h1
    exact hs.trans (same_sendAll (hs.allAcked ha) h)
  · exact nomatch h
  · exact nomatch h

theorem same_writeAll : ∀ (calls : List (Env × List (List UInt8))) (t t' : Track), AllAcked t.ups →
    (∀ e ∈ calls.map (·.1), e.wm = []) → writeAll t calls = .ok t' → SameUps t.ups t'.ups
  | [], t, t', _, _, h => by
    unfold writeAll at h
    injection h with h; rw [← h]; exact SameUps.refl _
  | (e, bufs) :: rest, t, t', ha, hw, h => by
    unfold writeAll at h
    split at h
    · next t1 h1 =>
      have hs := same_writeChain ha (hw e (List.mem_cons_self ..)) h1
      exact hs.trans (same_writeAll rest t1 t' (hs.allAcked ha) (fun e he => hw e (List.mem_cons_of_mem _ he)) h)
    · exact nomatch h
    · exact nomatch h

theorem same_marked {t t' : Track} {e0 e : Env} {calls : List (Env × List (List UInt8))} {hdr : List UInt8}
    (ha : AllAcked t.ups) (hw : ∀ x ∈ e0 :: e :: calls.map (·.1), x.wm = []) (h : writeMarked t e0 calls hdr e = .ok t') :
    SameUps t.ups t'.ups := by
  unfold writeMarked at h
  split at h
  · exact nomatch h
  · dsimp only at h
    split at h
    · next t1 h1 =>
      have hs : SameUps t.ups t1.ups := same_writeAll _ { t with blocked := true } t1 ha (fun x hx => by
        rw [List.map_cons] at hx
        rcases List.mem_cons.1 hx with hx | hx
        · rw [hx]; exact hw e0 (List.mem_cons_self ..)
        · exact hw x (List.mem_cons_of_mem _ (List.mem_cons_of_mem _ hx))) h1
      split at h
      · exact nomatch h
      · split at h
        · next nodes _ h2 =>
          split at h
          · next t2 h3 =>
            injection h with h
            rw [← h]
            have hs2 : SameUps t1.ups t2.ups :=
              same_sendAll (t := { t1 with nodes := nodes, blocked := false }) (hs.allAcked ha) h3
            exact hs.trans hs2
          · exact nomatch h
          · exact nomatch h
        · exact nomatch h
        · exact nomatch h
        · exact nomatch h
    · exact nomatch h
    · exact nomatch h

/-! ## One event -/

/-- The event is one of upstream 0. -/
def Op.first : Op → Bool
  | .del 0 => true
  | .connect 0 _ => true
  | .writable 0 _ _ => true
  | .readable 0 _ _ _ => true
  | .timeout 0 _ => true
  | _ => false

/-- What an event does to the first upstream, when it is not removed. -/
def First (t : Track) (u : Up) (op : Op) (u' : Up) : Prop :=
  match op with
  | .connect 0 cd => u' = if u.conn then u else connectUp u cd
  | .readable 0 bytes closed allowed =>
    if u.conn then readHandler t u bytes closed allowed = .ok (some u') else u' = u
  | _ => Same u u'

theorem sameUps_first {l l' : List Up} (h : SameUps l l') {u : Up} (h0 : l[0]? = some u) :
    ∃ u', l'[0]? = some u' ∧ Same u u' := by
  have hl : 0 < l'.length := by
    rw [h.1]
    exact (List.getElem?_eq_some_iff.1 h0).1
  refine ⟨l'[0], List.getElem?_eq_getElem hl, ?_⟩
  obtain ⟨v, hv, hs⟩ := h.2 0 _ (List.getElem?_eq_getElem hl)
  rw [h0] at hv
  injection hv with hv
  rw [hv]; exact hs

theorem onUp_other {t t' : Track} {i : Nat} {f : Up → Res (Option Up)} (hi : 0 < i) (e : onUp t i f = .ok t') :
    t'.ups[0]? = t.ups[0]? := by
  unfold onUp at e
  split at e
  · injection e with e; rw [← e]
  · split at e
    · next u _ _ =>
      cases h : f u with
      | ok o =>
        rw [h] at e
        injection e with e
        rw [← e]
        cases o with
        | none => exact List.getElem?_eraseIdx_of_lt hi
        | some v => exact List.getElem?_set_ne (by omega)
      | err => rw [h] at e; exact nomatch e
      | ub => rw [h] at e; exact nomatch e
    · injection e with e; rw [← e]

theorem onUp_first {t t' : Track} {f : Up → Res (Option Up)} {u : Up} (h0 : t.ups[0]? = some u)
    (hl : t'.ups.length = t.ups.length) (e : onUp t 0 f = .ok t') :
    ∃ u', t'.ups[0]? = some u' ∧ if u.conn then f u = .ok (some u') else u' = u := by
  have hlen : 0 < t.ups.length := (List.getElem?_eq_some_iff.1 h0).1
  unfold onUp at e
  rw [h0] at e
  dsimp only at e
  by_cases hc : u.conn = true
  · rw [if_pos hc] at e
    simp only [if_pos hc]
    cases h : f u with
    | ok o =>
      rw [h] at e
      injection e with e
      cases o with
      | none =>
        rw [← e] at hl
        have : (t.ups.eraseIdx 0).length = t.ups.length := hl
        rw [List.length_eraseIdx_of_lt hlen] at this
        omega
      | some v =>
        refine ⟨v, ?_, rfl⟩
        rw [← e]
        exact List.getElem?_set_self hlen
    | err => rw [h] at e; exact nomatch e
    | ub => rw [h] at e; exact nomatch e
  · rw [if_neg hc] at e
    simp only [if_neg hc]
    injection e with e
    exact ⟨u, by rw [← e]; exact h0, rfl⟩

/-- The first upstream behind an event that does not remove it. -/
theorem step_first {t t' : Track} {ps ps' : List Packet} {op : Op} (ha : AllAcked t.ups) (hal : Allowed true t ps op ps')
    (e : step t op = .ok t') (hl : op.first = true → t'.ups.length = t.ups.length) {u : Up} (h0 : t.ups[0]? = some u) :
    ∃ u', t'.ups[0]? = some u' ∧ First t u op u' := by
  have hmem : u ∈ t.ups := List.mem_of_getElem? h0
  have hlen : 0 < t.ups.length := (List.getElem?_eq_some_iff.1 h0).1
  have hp := ha u hmem
  cases op with
  | packet calls frame =>
    obtain ⟨q, _, _, _, hq⟩ := hal
    have e : writePacket t calls frame = .ok t' := e
    unfold writePacket at e
    split at e
    · next t1 h1 =>
      injection e with e
      have hs := same_writeAll _ _ _ ha (hq rfl) h1
      have hu : t'.ups = t1.ups := by rw [← e]; split <;> rfl
      rw [hu]
      exact sameUps_first hs h0
    · exact nomatch e
    · exact nomatch e
  | marked e0 calls hdr en =>
    obtain ⟨q, _, _, _, _, _, hq⟩ := hal
    exact sameUps_first (same_marked ha (hq rfl) e) h0
  | flush en =>
    have e : flush t en = .ok t' := e
    unfold flush at e
    split at e
    · next t1 h1 =>
      have hs := same_appendAll ha h1
      exact sameUps_first (hs.trans (same_sendAll (hs.allAcked ha) e)) h0
    · exact nomatch e
    · exact nomatch e
  | add src policy cd =>
    refine ⟨u, ?_, Same.refl u⟩
    unfold step at e
    cases src with
    | none =>
      dsimp only at e
      split at e
      · injection e with e
        rw [← e]
        show (t.ups ++ _)[0]? = _
        rw [List.getElem?_append_left hlen]; exact h0
      · exact nomatch e
      · exact nomatch e
    | some i =>
      dsimp only at e
      split at e
      · injection e with e; rw [← e]; exact h0
      · injection e with e
        rw [← e]
        show (t.ups ++ _)[0]? = _
        rw [List.getElem?_append_left hlen]; exact h0
  | del i =>
    have e : Res.ok { t with ups := t.ups.eraseIdx i } = .ok t' := e
    injection e with e
    cases i with
    | zero =>
      have := hl rfl
      rw [← e] at this
      have h1 : (t.ups.eraseIdx 0).length = t.ups.length := this
      rw [List.length_eraseIdx_of_lt hlen] at h1
      omega
    | succ i =>
      refine ⟨u, ?_, Same.refl u⟩
      rw [← e]
      show (t.ups.eraseIdx (i + 1))[0]? = _
      rw [List.getElem?_eraseIdx_of_lt (by omega)]; exact h0
  | connect i cd =>
    unfold step at e
    dsimp only at e
    cases i with
    | zero =>
      rw [h0] at e
      dsimp only at e
      by_cases hc : u.conn = true
      · rw [if_pos hc] at e
        injection e with e
        exact ⟨u, by rw [← e]; exact h0, by show u = _; rw [if_pos hc]⟩
      · rw [if_neg hc] at e
        injection e with e
        refine ⟨connectUp u cd, ?_, by show _ = _; rw [if_neg hc]⟩
        rw [← e]
        exact List.getElem?_set_self hlen
    | succ i =>
      refine ⟨u, ?_, Same.refl u⟩
      split at e
      · injection e with e; rw [← e]; exact h0
      · split at e
        · injection e with e; rw [← e]; exact h0
        · injection e with e
          rw [← e]
          show (t.ups.set (i + 1) _)[0]? = _
          rw [List.getElem?_set_ne (by omega)]; exact h0
  | writable i io allowed =>
    have e : onUp t i _ = .ok t' := e
    cases i with
    | zero =>
      obtain ⟨u', h1, h2⟩ := onUp_first h0 (hl rfl) e
      refine ⟨u', h1, ?_⟩
      show Same u u'
      by_cases hc : u.conn = true
      · rw [if_pos hc] at h2; exact same_write hp h2
      · rw [if_neg hc] at h2; rw [h2]; exact Same.refl u
    | succ i => exact ⟨u, by rw [onUp_other (by omega) e]; exact h0, Same.refl u⟩
  | readable i bytes closed allowed =>
    have e : onUp t i _ = .ok t' := e
    cases i with
    | zero => exact onUp_first h0 (hl rfl) e
    | succ i => exact ⟨u, by rw [onUp_other (by omega) e]; exact h0, Same.refl u⟩
  | timeout i allowed =>
    have e : onUp t i _ = .ok t' := e
    cases i with
    | zero =>
      obtain ⟨u', h1, h2⟩ := onUp_first h0 (hl rfl) e
      refine ⟨u', h1, ?_⟩
      show Same u u'
      by_cases hc : u.conn = true
      · rw [if_pos hc] at h2; exact same_error hp h2
      · rw [if_neg hc] at h2; rw [h2]; exact Same.refl u
    | succ i => exact ⟨u, by rw [onUp_other (by omega) e]; exact h0, Same.refl u⟩

/-- The first upstream of all is a new one. -/
theorem step_new {t t' : Track} {ps ps' : List Packet} {op : Op} (hal : Allowed true t ps op ps')
    (e : step t op = .ok t') (h0 : t.ups = []) {u' : Up} (h' : t'.ups[0]? = some u') :
    u'.frame = field t.connect 80 8 ∧ u'.recv = [] ∧ u'.conn = false ∧ ∃ src policy, op = .add src policy u'.connectData := by
  have no : ∀ l : List Up, SameUps t.ups l → l[0]? = some u' → False := by
    intro l hs hl
    obtain ⟨v, hv, _⟩ := hs.2 0 u' hl
    rw [h0] at hv
    exact nomatch hv
  have ha : AllAcked t.ups := by rw [h0]; intro _ h; exact nomatch h
  have hon : ∀ i f, onUp t i f = .ok t' → False := by
    intro i f e
    unfold onUp at e
    rw [h0] at e
    dsimp only [List.getElem?_nil] at e
    injection e with e
    rw [← e, h0] at h'
    exact nomatch h'
  cases op with
  | packet calls frame =>
    obtain ⟨q, _, _, _, hq⟩ := hal
    have e : writePacket t calls frame = .ok t' := e
    unfold writePacket at e
    split at e
    · next t1 h1 =>
      injection e with e
      have hs := same_writeAll _ _ _ ha (hq rfl) h1
      have hu : t'.ups = t1.ups := by rw [← e]; split <;> rfl
      rw [hu] at h'
      exact (no _ hs h').elim
    · exact nomatch e
    · exact nomatch e
  | marked e0 calls hdr en =>
    obtain ⟨q, _, _, _, _, _, hq⟩ := hal
    exact (no _ (same_marked ha (hq rfl) e) h').elim
  | flush en =>
    have e : flush t en = .ok t' := e
    unfold flush at e
    split at e
    · next t1 h1 =>
      have hs := same_appendAll ha h1
      exact (no _ (hs.trans (same_sendAll (hs.allAcked ha) e)) h').elim
    · exact nomatch e
    · exact nomatch e
  | add src policy cd =>
    unfold step at e
    cases src with
    | none =>
      dsimp only at e
      split at e
      · next u h1 =>
        injection e with e
        rw [← e, h0] at h'
        injection h' with h'
        subst h'
        unfold createUp at h1
        split at h1
        · exact nomatch h1
        · injection h1 with h1
          rw [← h1]
          exact ⟨rfl, rfl, rfl, none, policy, rfl⟩
      · exact nomatch e
      · exact nomatch e
    | some i =>
      rw [h0] at e
      dsimp only [List.getElem?_nil] at e
      injection e with e
      rw [← e, h0] at h'
      exact nomatch h'
  | del i =>
    have e : Res.ok { t with ups := t.ups.eraseIdx i } = .ok t' := e
    injection e with e
    rw [← e, h0] at h'
    exact nomatch h'
  | connect i cd =>
    unfold step at e
    rw [h0] at e
    dsimp only [List.getElem?_nil] at e
    injection e with e
    rw [← e, h0] at h'
    exact nomatch h'
  | writable i io allowed => exact (hon _ _ e).elim
  | readable i bytes closed allowed => exact (hon _ _ e).elim
  | timeout i allowed => exact (hon _ _ e).elim

/-! ## Acks that arrive -/

/-- What acks leave alone. -/
structure Keep (u u' : Up) : Prop where
  policy : u'.policy = u.policy
  recv   : u'.recv = u.recv
  data   : u'.connectData = u.connectData
  conn   : u'.conn = u.conn

theorem ackPacket_keep {t : Track} {u u' : Up} {h : List UInt8} {rc : Rc} (e : ackPacket t u h = .ok (rc, u')) :
    Keep u u' ∧ u'.frame ≤ u.frame + 1 := by
  have hmod : (u.frame + 1) % 2 ^ 64 ≤ u.frame + 1 := Nat.mod_le _ _
  unfold ackPacket at e
  dsimp only at e
  repeat' split at e
  all_goals first
    | (cases e; done)
    | (injection e with e; injection e with _ e; rw [← e]; exact ⟨⟨rfl, rfl, rfl, rfl⟩, by first | exact hmod | exact Nat.le_succ _⟩)

theorem ackLoop_keep {t : Track} {id : Nat} : ∀ (n : Nat) (u u' : Up) (ok : Bool), ackFramesLoop t n u id = .ok (ok, u') →
    Keep u u' ∧ u'.frame ≤ max u.frame id
  | 0, _, _, _, e => by unfold ackFramesLoop at e; exact nomatch e
  | n + 1, u, u', ok, e => by
    unfold ackFramesLoop at e
    split at e
    · next hlt =>
      split at e
      · injection e with e; injection e with _ e; rw [← e]; exact ⟨⟨rfl, rfl, rfl, rfl⟩, by omega⟩
      · split at e
        · injection e with e; injection e with _ e; rw [← e]; exact ⟨⟨rfl, rfl, rfl, rfl⟩, by show u.frame ≤ _; omega⟩
        · dsimp only at e
          split at e
          · injection e with e; injection e with _ e; rw [← e]; exact ⟨⟨rfl, rfl, rfl, rfl⟩, by show u.frame ≤ _; omega⟩
          · split at e
            · next u2 h2 =>
              obtain ⟨k1, k2⟩ := ackPacket_keep h2
              obtain ⟨l1, l2⟩ := ackLoop_keep n u2 u' ok e
              have k2 : u2.frame ≤ u.frame + 1 := k2
              exact ⟨⟨l1.policy.trans k1.policy, l1.recv.trans k1.recv, l1.data.trans k1.data, l1.conn.trans k1.conn⟩, by omega⟩
            · next u2 _ h2 =>
              obtain ⟨k1, k2⟩ := ackPacket_keep h2
              injection e with e; injection e with _ e
              have k2 : u2.frame ≤ u.frame + 1 := k2
              rw [← e]
              exact ⟨⟨k1.policy, k1.recv, k1.data, k1.conn⟩, by omega⟩
            · exact nomatch e
            · exact nomatch e
        · exact nomatch e
        · exact nomatch e
    · injection e with e; injection e with _ e; rw [← e]; exact ⟨⟨rfl, rfl, rfl, rfl⟩, by omega⟩

theorem parseAck_keep {t : Track} {u u' : Up} {id : Nat} {ok : Bool} (hid : id < 2 ^ 64)
    (e : parseAck t u (packet id) = .ok (ok, u')) : Keep u u' ∧ u'.frame ≤ max u.frame id := by
  have hf := KmpInAck.packet_fields id hid
  unfold parseAck at e
  rw [hf.2.2.2] at e
  repeat' split at e
  all_goals first
    | (injection e with e; injection e with _ e; rw [← e]; exact ⟨⟨rfl, rfl, rfl, rfl⟩, by omega⟩)
    | skip
  unfold ackFrames at e
  split at e
  · next u1 h1 =>
    obtain ⟨k1, k2⟩ := ackLoop_keep _ _ _ _ h1
    injection e with e; injection e with _ e
    rw [← e]
    exact ⟨⟨k1.policy, k1.recv, k1.data, k1.conn⟩, k2⟩
  · next u1 h1 =>
    obtain ⟨k1, k2⟩ := ackLoop_keep _ _ _ _ h1
    injection e with e; injection e with _ e
    rw [← e]
    exact ⟨⟨k1.policy, k1.recv, k1.data, k1.conn⟩, k2⟩
  · exact nomatch e
  · exact nomatch e

/-- The bytes `recv` are those behind the last whole ack packet of `inp`. -/
def Tail (inp recv : List UInt8) : Prop := ∃ q, recv.length < 40 ∧ inp.length = 40 * q + recv.length ∧ recv = inp.drop (40 * q)

theorem packets_length (ids : List Nat) : (ids.flatMap packet).length = 40 * ids.length := by
  induction ids with
  | nil => rfl
  | cons i ids ih => rw [List.flatMap_cons, List.length_append, KmpInAck.packet_length, ih, List.length_cons]; omega

/-- Acks with ids up to `N` arrive in any pieces. -/
theorem recvLoop_keep {t : Track} {N : Nat} (hN : N < 2 ^ 64) : ∀ (n : Nat) (u u' : Up) (bytes : List UInt8) (ok : Bool)
    (ids : List Nat) (part : List UInt8), u.recv.length < 40 → part.length < 40 → (∀ i ∈ ids, i ≤ N) →
    u.recv ++ bytes <+: ids.flatMap packet ++ part → recvLoop t n u bytes = .ok (ok, u') →
    u'.frame ≤ max u.frame N ∧ u'.policy = u.policy ∧ u'.connectData = u.connectData ∧
      (ok = true → u'.conn = u.conn ∧ Tail (u.recv ++ bytes) u'.recv)
  | 0, _, _, _, _, _, _, _, _, _, _, e => by unfold recvLoop at e; exact nomatch e
  | n + 1, u, u', bytes, ok, ids, part, hr, hp, hi, hpre, e => by
    unfold recvLoop at e
    dsimp only at e
    split at e
    · next hlt =>
      injection e with e; injection e with e1 e
      rw [← e]
      refine ⟨by show u.frame ≤ _; omega, rfl, rfl, fun _ => ⟨rfl, 0, ?_, ?_, ?_⟩⟩
      · show (u.recv ++ bytes).length < 40
        rw [List.length_append]; omega
      · show _ = 0 + (u.recv ++ bytes).length; omega
      · rfl
    · next hlt =>
      -- a whole packet
      have hlen := hpre.length_le
      rw [List.length_append, List.length_append, packets_length] at hlen
      cases ids with
      | nil => rw [List.length_nil] at hlen; omega
      | cons i ids =>
        rw [List.flatMap_cons, List.append_assoc] at hpre
        have hpl := KmpInAck.packet_length i
        have hblk : u.recv ++ bytes.take (40 - u.recv.length) = packet i := by
          have h1 := List.prefix_iff_eq_take.1 hpre
          have h2 : (u.recv ++ bytes).take 40 = u.recv ++ bytes.take (40 - u.recv.length) := by
            rw [List.take_append, List.take_of_length_le (by omega)]
          rw [← h2, h1, List.take_take, Nat.min_eq_left (by rw [List.length_append]; omega), ← hpl, List.take_left]
        have hrest : bytes.drop (40 - u.recv.length) <+: ids.flatMap packet ++ part := by
          have h1 : u.recv ++ bytes = packet i ++ bytes.drop (40 - u.recv.length) := by
            rw [← hblk, List.append_assoc, List.take_append_drop]
          rw [h1] at hpre
          exact (List.prefix_append_right_inj _).1 hpre
        have hiN : i ≤ N := hi i (List.mem_cons_self ..)
        rw [hblk] at e
        split at e
        · next u1 h1 =>
          obtain ⟨k1, k2⟩ := parseAck_keep (by omega) h1
          have hr1 : u1.recv = [] := k1.recv
          have k2 : u1.frame ≤ max u.frame i := k2
          obtain ⟨l1, l2, l3, l4⟩ := recvLoop_keep hN n u1 u' _ ok ids part (by rw [hr1]; exact Nat.zero_lt_succ _) hp
            (fun j hj => hi j (List.mem_cons_of_mem _ hj)) (by rw [hr1, List.nil_append]; exact hrest) e
          refine ⟨by omega, by rw [l2]; exact k1.policy, by rw [l3]; exact k1.data, fun hok => ?_⟩
          obtain ⟨m1, q, m2, m3, m4⟩ := l4 hok
          refine ⟨by rw [m1]; exact k1.conn, q + 1, m2, ?_, ?_⟩
          · rw [hr1, List.nil_append, List.length_drop] at m3
            rw [List.length_append]; omega
          · rw [m4, hr1, List.nil_append, List.drop_drop]
            have hd : (u.recv ++ bytes).drop (40 * (q + 1)) = bytes.drop (40 * (q + 1) - u.recv.length) := by
              rw [List.drop_append, List.drop_of_length_le (show u.recv.length ≤ 40 * (q + 1) by omega), List.nil_append]
            rw [hd]
            congr 1
            omega
        · next u1 h1 =>
          obtain ⟨k1, k2⟩ := parseAck_keep (by omega) h1
          have k2 : u1.frame ≤ max u.frame i := k2
          injection e with e; injection e with e1 e
          rw [← e]
          refine ⟨by omega, k1.policy, k1.data, fun hok => ?_⟩
          rw [hok] at e1
          exact nomatch e1
        · exact nomatch e
        · exact nomatch e

/-- Acks arrive at an upstream that has got the bytes `inp` on this connection before. -/
theorem readHandler_keep {t : Track} {N : Nat} (hN : N < 2 ^ 64) {u u' : Up} {inp bytes : List UInt8} {closed allowed : Bool}
    {ids : List Nat} {part : List UInt8} (hp : u.policy = .lastAcked) (hpart : part.length < 40) (hi : ∀ i ∈ ids, i ≤ N)
    (ht : Tail inp u.recv) (hpre : inp ++ bytes <+: ids.flatMap packet ++ part)
    (e : readHandler t u bytes closed allowed = .ok (some u')) :
    u'.frame ≤ max u.frame N ∧ u'.connectData = u.connectData ∧ (u'.conn = true → Tail (inp ++ bytes) u'.recv) := by
  obtain ⟨q, t1, t2, t3⟩ := ht
  have hlen := hpre.length_le
  rw [List.length_append, List.length_append, packets_length] at hlen
  have hpre' : u.recv ++ bytes <+: (ids.drop q).flatMap packet ++ part := by
    obtain ⟨r, hr⟩ := hpre
    refine ⟨r, ?_⟩
    have h1 : (inp ++ bytes ++ r).drop (40 * q) = u.recv ++ bytes ++ r := by
      rw [List.append_assoc, List.drop_append, show 40 * q - inp.length = 0 by omega, List.drop_zero, ← t3, List.append_assoc]
    rw [← h1, hr, List.drop_append, packets_length, show 40 * q - 40 * ids.length = 0 by omega, List.drop_zero]
    congr 1
    conv => lhs; rw [← List.take_append_drop q ids, List.flatMap_append]
    rw [List.drop_append, packets_length, List.length_take, Nat.min_eq_left (by omega),
      List.drop_of_length_le (by rw [packets_length, List.length_take]; omega), Nat.sub_self, List.drop_zero, List.nil_append]
  unfold readHandler at e
  split at e
  · next ok u1 h1 =>
    obtain ⟨l1, l2, l3, l4⟩ := recvLoop_keep hN _ _ _ _ _ _ _ t1 hpart (fun i hx => hi i (List.mem_of_mem_drop hx)) hpre' h1
    split at e
    · next hok =>
      rw [Bool.and_eq_true] at hok
      injection e with e; injection e with e
      rw [← e]
      obtain ⟨m1, q', m2, m3, m4⟩ := l4 hok.1
      refine ⟨l1, l3, fun _ => ⟨q + q', m2, ?_, ?_⟩⟩
      · rw [List.length_append] at m3 ⊢; omega
      · rw [m4]
        have : u.recv ++ bytes = (inp ++ bytes).drop (40 * q) := by
          rw [List.drop_append, show 40 * q - inp.length = 0 by omega, List.drop_zero, ← t3]
        rw [this, List.drop_drop]
        congr 1
        omega
    · have hs := same_error (by rw [l2]; exact hp) e
      refine ⟨by rw [hs.frame]; exact l1, by rw [hs.data]; exact l3, fun hc => ?_⟩
      -- the upstream has no connection any more
      exfalso
      unfold upError at e
      split at e
      · next u2 h2 =>
        injection e with e; injection e with e
        subst e
        unfold republish at h2
        split at h2
        · simp at h2
        · dsimp only at h2
          split at h2
          · injection h2 with h2; injection h2 with _ h2; rw [← h2] at hc; exact nomatch hc
          · rw [l2, hp, if_neg (fun h => nomatch h)] at h2
            injection h2 with h2; injection h2 with _ h2; rw [← h2] at hc; exact nomatch hc
      · simp at e
      · exact nomatch e
      · exact nomatch e
  · exact nomatch e
  · exact nomatch e

end Verif.KmpOut
