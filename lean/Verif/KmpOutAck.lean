import Verif.KmpOutMem
import Verif.KmpInFrames

/-!
# Moving the acked position of a KMP upstream (lemmas for C20, C21, C22)
-/

namespace Verif.KmpOut

open Verif.KmpIn (field ptype hsize dsize tMediaInfo tFrame tNull tEos tConnect Packet Valid Whole frames frames_append
  frames_one)
open Verif.BufStream (Stream)

/-! ## Specification: packets -/

/-- The bytes of a packet. -/
def Packet.bytes (p : Packet) : List UInt8 := p.raw ++ p.body

/-- The bytes of packets in a row. -/
def stream (ps : List Packet) : List UInt8 := ps.flatMap Packet.bytes

/-- What a KMP sender writes: media info, frames, and keepalive and end of stream without a body. -/
def Sendable (p : Packet) : Prop :=
  Whole p ∧ (p.isInfo ∨ p.isFrame ∨ ((ptype p.raw = tNull ∨ ptype p.raw = tEos) ∧ p.body = []))

instance (p : Packet) : Decidable (Sendable p) := by unfold Sendable Whole; infer_instance

/-- The media info in force behind the packets: the bytes of the last media info packet. -/
def infoOf (ps : List Packet) : List UInt8 :=
  match (ps.filter (fun p => decide p.isInfo)).getLast? with
  | some p => Packet.bytes p
  | none => []

/-- The position behind the first `k` packets. -/
def off (ps : List Packet) (k : Nat) : Nat := (stream (ps.take k)).length

/-! ## Lemmas on packets -/

theorem stream_append (a b : List Packet) : stream (a ++ b) = stream a ++ stream b := by
  unfold stream; rw [List.flatMap_append]

theorem stream_one (p : Packet) : stream [p] = Packet.bytes p := by simp [stream]

theorem take_succ {ps : List Packet} {k : Nat} (h : k < ps.length) : ps.take (k + 1) = ps.take k ++ [ps[k]] := by
  rw [List.take_add_one, List.getElem?_eq_getElem h]; rfl

theorem sendable_len {p : Packet} (h : Sendable p) : (Packet.bytes p).length = 16 + p.body.length := by
  unfold Packet.bytes; rw [List.length_append, h.1.1]

theorem sendable_size {p : Packet} (h : Sendable p) : packetSize p.raw = 16 + p.body.length := by
  obtain ⟨⟨h1, ⟨_, _, h3, h4⟩, h5⟩, _⟩ := h
  unfold packetSize
  rw [Nat.mod_eq_of_lt (by omega)]
  omega

theorem off_succ {ps : List Packet} (hs : ∀ p ∈ ps, Sendable p) {k : Nat} (h : k < ps.length) :
    off ps (k + 1) = off ps k + (16 + ps[k].body.length) := by
  unfold off
  rw [take_succ h, stream_append, List.length_append, stream_one, sendable_len (hs _ (List.getElem_mem h))]

theorem stream_split (ps : List Packet) (k : Nat) : stream ps = stream (ps.take k) ++ stream (ps.drop k) := by
  rw [← stream_append, List.take_append_drop]

theorem stream_drop (ps : List Packet) (k : Nat) : (stream ps).drop (off ps k) = stream (ps.drop k) := by
  rw [stream_split ps k]; unfold off; exact List.drop_left

theorem off_le_length (ps : List Packet) (k : Nat) : off ps k ≤ (stream ps).length := by
  have := congrArg List.length (stream_split ps k)
  rw [List.length_append] at this
  unfold off; omega

theorem off_all {ps : List Packet} {k : Nat} (h : ps.length ≤ k) : off ps k = (stream ps).length := by
  unfold off; rw [List.take_of_length_le h]

theorem off_mono (ps : List Packet) {j k : Nat} (h : j ≤ k) : off ps j ≤ off ps k := by
  have := off_le_length (ps.take k) j
  unfold off at this ⊢
  rwa [List.take_take, Nat.min_eq_left h] at this

theorem off_append {ps qs : List Packet} {k : Nat} (h : k ≤ ps.length) : off (ps ++ qs) k = off ps k := by
  unfold off; rw [List.take_append_of_le_length h]

theorem off_strict {ps : List Packet} (hs : ∀ p ∈ ps, Sendable p) {j k : Nat} (h : j < k) (hk : k ≤ ps.length) :
    off ps j < off ps k := by
  have h1 := off_succ hs (show j < ps.length by omega)
  have h2 := off_mono ps (show j + 1 ≤ k by omega)
  omega

/-- A header behind the first packets is the one of the next packet. -/
theorem header_at {ps : List Packet} (hs : ∀ p ∈ ps, Sendable p) {k : Nat} (h : k < ps.length) :
    ((stream ps).drop (off ps k)).take 16 = ps[k].raw := by
  rw [stream_drop, List.drop_eq_getElem_cons h]
  show (Packet.bytes ps[k] ++ stream (ps.drop (k + 1))).take 16 = _
  have := (hs _ (List.getElem_mem h)).1.1
  unfold Packet.bytes
  rw [List.append_assoc, ← this, List.take_left]

theorem body_at {ps : List Packet} (hs : ∀ p ∈ ps, Sendable p) {k : Nat} (h : k < ps.length) :
    ((stream ps).drop (off ps k + 16)).take ps[k].body.length = ps[k].body := by
  rw [← List.drop_drop, stream_drop, List.drop_eq_getElem_cons h]
  show ((Packet.bytes ps[k] ++ stream (ps.drop (k + 1))).drop 16).take _ = _
  have := (hs _ (List.getElem_mem h)).1.1
  unfold Packet.bytes
  rw [List.append_assoc, ← this, List.drop_left, List.take_left]

theorem frames_succ {ps : List Packet} {k : Nat} (h : k < ps.length) :
    frames (ps.take (k + 1)) = frames (ps.take k) + if ps[k].isFrame then 1 else 0 := by
  rw [take_succ h, frames_append, frames_one]

theorem frames_take_le (ps : List Packet) (k : Nat) : frames (ps.take k) ≤ frames ps := by
  conv => rhs; rw [← List.take_append_drop k ps, frames_append]
  omega

theorem frames_mono (ps : List Packet) {j k : Nat} (h : j ≤ k) : frames (ps.take j) ≤ frames (ps.take k) := by
  have := frames_take_le (ps.take k) j
  rwa [List.take_take, Nat.min_eq_left h] at this

theorem info_succ {ps : List Packet} {k : Nat} (h : k < ps.length) :
    infoOf (ps.take (k + 1)) = if ps[k].isInfo then Packet.bytes ps[k] else infoOf (ps.take k) := by
  rw [take_succ h]
  unfold infoOf
  rw [List.filter_append]
  by_cases hi : ps[k].isInfo
  · rw [if_pos hi]
    simp [hi]
  · rw [if_neg hi]
    simp [hi]

/-! ## The acked position -/

/-- Nothing but the acked position differs. -/
def Moves (u u' : Up) : Prop :=
  u' = { u with reader := u'.reader, frame := u'.frame, info := u'.info, acked := u'.acked }

theorem Moves.refl (u : Up) : Moves u u := rfl

theorem Moves.trans {u u' u'' : Up} (h : Moves u u') (h' : Moves u' u'') : Moves u u'' := by
  unfold Moves at *
  rw [h] at h'
  exact h'

theorem Moves.sentOff {u u' : Up} (h : Moves u u') : sentOff u' = sentOff u := by rw [h]; rfl

/-- The upstream has acked the first `k` packets. -/
structure Acked (t : Track) (ps : List Packet) (u : Up) (k : Nat) : Prop where
  le     : k ≤ ps.length
  acked  : u.acked = off ps k
  reader : At t u.reader (off ps k)
  frame  : u.frame = field t.connect 80 8 + frames (ps.take k)
  info   : u.info = infoOf (ps.take k)

/-- The first `v` bytes that were written are those of the packets. -/
structure Shown (t : Track) (ps : List Packet) (S : List UInt8) (v : Nat) : Prop where
  mem  : Mem t S
  vis  : v ≤ S.length
  same : S.take v = (stream ps).take v
  inps : v ≤ (stream ps).length
  good : ∀ p ∈ ps, Sendable p
  few  : field t.connect 80 8 + frames ps < 2 ^ 64 - 1

theorem shown_slice {t : Track} {ps : List Packet} {S : List UInt8} {v : Nat} (h : Shown t ps S v) {o n : Nat}
    (hn : o + n ≤ v) : (S.drop o).take n = ((stream ps).drop o).take n := by
  have e : ((S.take v).drop o).take n = (((stream ps).take v).drop o).take n := by rw [h.same]
  rwa [List.drop_take, List.drop_take, List.take_take, List.take_take, Nat.min_eq_left (by omega)] at e

theorem lt_length {ps : List Packet} {k v : Nat} (hv : v ≤ (stream ps).length)
    (h : off ps k + 16 ≤ v) : k < ps.length := by
  rcases Nat.lt_or_ge k ps.length with h' | h'
  · exact h'
  · rw [off_all h'] at h; omega

/-- `ngx_kmp_out_upstream_read_packet`: a whole packet within the limit, or nothing. -/
theorem readPacket_spec {t : Track} {ps : List Packet} {S : List UInt8} {v : Nat} (h : Shown t ps S v) {u : Up} {k : Nat}
    (ha : Acked t ps u k) {limit : Int} (hl : limit ≤ v) (ht : limit < total t) :
    (∃ b, readPacket t u limit = .ok (.declined, b, u) ∧ (k < ps.length → limit < off ps (k + 1))) ∨
    (∃ (hk : k < ps.length) (r : Stream), readPacket t u limit = .ok (.ok, ps[k].raw, { u with reader := r }) ∧
      At t r (off ps k + 16) ∧ (off ps (k + 1) : Int) ≤ limit) := by
  unfold readPacket
  have hac := ha.acked
  by_cases hc : (u.acked : Int) + 16 > limit
  · rw [if_pos hc]
    left
    refine ⟨[], rfl, fun hk => ?_⟩
    have := off_succ h.good hk
    omega
  · rw [if_neg hc]
    have hk : k < ps.length := lt_length h.inps (by omega)
    have hvis := h.vis
    obtain ⟨r, e, hr⟩ := read_spec h.mem (n := 16) ha.reader (by omega) (by omega)
    rw [e]
    dsimp only
    rw [shown_slice h (show off ps k + 16 ≤ v by omega), header_at h.good hk, sendable_size (h.good _ (List.getElem_mem hk))]
    have hs := off_succ h.good hk
    by_cases hd : (u.acked : Int) + ↑(16 + ps[k].body.length) > limit
    · rw [if_pos hd]
      left
      exact ⟨_, rfl, fun _ => by omega⟩
    · rw [if_neg hd]
      right
      exact ⟨hk, r, rfl, hr, by omega⟩

/-- `ngx_kmp_out_upstream_ack_packet` on a packet that was written: the position moves behind it, except at the
end of stream. -/
theorem ackPacket_spec {t : Track} {ps : List Packet} {S : List UInt8} {v : Nat} (h : Shown t ps S v) {u : Up} {k : Nat}
    (ha : Acked t ps u k) (hk : k < ps.length) {r : Stream} (hr : At t r (off ps k + 16)) (hv : off ps (k + 1) ≤ v)
    (ht : off ps (k + 1) < total t) :
    (ptype ps[k].raw = tEos → ackPacket t { u with reader := r } ps[k].raw = .ok (.done, { u with reader := r })) ∧
    (ptype ps[k].raw ≠ tEos → ∃ u', ackPacket t { u with reader := r } ps[k].raw = .ok (.ok, u') ∧
      Acked t ps u' (k + 1) ∧ Moves u u') := by
  have hp := h.good _ (List.getElem_mem hk)
  have hsz := sendable_size hp
  have hs := off_succ h.good hk
  have hvis := h.vis
  have hfew := h.few
  have hft := frames_take_le ps (k + 1)
  have hfs := frames_succ hk
  have his := info_succ hk
  have hd : tMediaInfo ≠ tFrame ∧ tMediaInfo ≠ tNull ∧ tMediaInfo ≠ tEos ∧ tFrame ≠ tNull ∧ tFrame ≠ tEos ∧
    tNull ≠ tEos := by decide
  constructor
  · intro he
    unfold ackPacket
    rw [he]
    dsimp only
    rw [if_neg (Ne.symm hd.2.2.1), if_neg (Ne.symm hd.2.2.2.2.1), if_neg (Ne.symm hd.2.2.2.2.2), if_pos rfl]
  · intro he
    have hread := read_spec h.mem (n := ps[k].body.length) hr (by omega) (by omega)
    have hskip := skip_spec h.mem (n := ps[k].body.length) hr (by omega) (by omega)
    rw [shown_slice h (show off ps k + 16 + ps[k].body.length ≤ v by omega), body_at h.good hk] at hread
    unfold ackPacket
    dsimp only
    rw [hsz, show 16 + ps[k].body.length - 16 = ps[k].body.length by omega]
    rcases hp.2 with hi | hf | ⟨hn, hb⟩
    · have hnf : ¬ps[k].isFrame := by
        unfold KmpIn.Packet.isFrame; unfold KmpIn.Packet.isInfo at hi; rw [hi]; exact hd.1
      rw [if_neg hnf] at hfs
      rw [if_pos hi] at his
      rw [if_pos (show ptype ps[k].raw = tMediaInfo from hi), if_neg (show ¬(16 + ps[k].body.length < 16) by omega)]
      obtain ⟨r', e, hr'⟩ := hread
      rw [e]
      refine ⟨_, rfl, ⟨by omega, ?_, ?_, ?_, ?_⟩, rfl⟩
      · show u.acked + _ = _; rw [ha.acked, hs]
      · rw [hs, show off ps k + (16 + ps[k].body.length) = off ps k + 16 + ps[k].body.length by omega]; exact hr'
      · show u.frame = _; rw [ha.frame, hfs]; rfl
      · rw [his]; rfl
    · have hni : ¬ps[k].isInfo := by
        unfold KmpIn.Packet.isInfo; unfold KmpIn.Packet.isFrame at hf; rw [hf]; exact Ne.symm hd.1
      rw [if_pos hf] at hfs
      rw [if_neg hni] at his
      rw [if_neg (show ¬ptype ps[k].raw = tMediaInfo from hni), if_pos (show ptype ps[k].raw = tFrame from hf),
        if_neg (show ¬(16 + ps[k].body.length < 16) by omega)]
      obtain ⟨r', e, hr'⟩ := hskip
      rw [e]
      refine ⟨_, rfl, ⟨by omega, ?_, ?_, ?_, ?_⟩, rfl⟩
      · show u.acked + _ = _; rw [ha.acked, hs]
      · rw [hs, show off ps k + (16 + ps[k].body.length) = off ps k + 16 + ps[k].body.length by omega]; exact hr'
      · show (u.frame + 1) % 2 ^ 64 = _
        rw [ha.frame, Nat.mod_eq_of_lt (by omega), hfs]; omega
      · rw [his]; exact ha.info
    · have hnl : ptype ps[k].raw = tNull := by
        rcases hn with hn | hn
        · exact hn
        · exact absurd hn he
      have hni : ¬ps[k].isInfo := by
        unfold KmpIn.Packet.isInfo; rw [hnl]; exact Ne.symm hd.2.1
      have hnf : ¬ps[k].isFrame := by
        unfold KmpIn.Packet.isFrame; rw [hnl]; exact Ne.symm hd.2.2.2.1
      rw [if_neg hnf] at hfs
      rw [if_neg hni] at his
      rw [if_neg (show ¬ptype ps[k].raw = tMediaInfo from hni), if_neg (show ¬ptype ps[k].raw = tFrame from hnf),
        if_pos hnl]
      rw [hb] at hs ⊢
      refine ⟨_, rfl, ⟨by omega, ?_, ?_, ?_, ?_⟩, rfl⟩
      · show u.acked + _ = _; rw [ha.acked, hs]
      · rw [hs]; exact hr
      · show u.frame = _; rw [ha.frame, hfs]; rfl
      · rw [his]; exact ha.info

/-- No end of stream is among the packets. -/
def NoEos (ps : List Packet) : Prop := ∀ p ∈ ps, ptype p.raw ≠ tEos

/-- The loop of an automatic ack moves the position over whole packets, not beyond the limit. -/
theorem ackLoop_spec {t : Track} {ps : List Packet} {S : List UInt8} {v : Nat} (h : Shown t ps S v) (hne : NoEos ps)
    {limit : Int} (hl : limit ≤ v) (ht : limit < total t) : ∀ (n : Nat) (u : Up) (left count k : Nat), Acked t ps u k →
    v < n + off ps k → 0 < n →
    ∃ rc u' l c k', ackLoop t n u limit left count = .ok (rc, u', l, c) ∧ (rc = .ok ∨ rc = .declined) ∧ k ≤ k' ∧
      Acked t ps u' k' ∧ Moves u u' ∧ ((off ps k' : Int) ≤ limit ∨ k' = k)
  | 0, _, _, _, _, _, _, h0 => absurd h0 (by omega)
  | n + 1, u, left, count, k, ha, hf, _ => by
    unfold ackLoop
    rcases readPacket_spec h ha hl ht with ⟨b, e, _⟩ | ⟨hk, r, e, hr, hlim⟩
    · rw [e]
      exact ⟨.declined, u, left, count, k, rfl, Or.inr rfl, Nat.le_refl _, ha, Moves.refl u, Or.inr rfl⟩
    · rw [e]
      dsimp only
      obtain ⟨u1, e1, ha1, hm1⟩ := (ackPacket_spec h ha hk hr (by omega) (by omega)).2 (hne _ (List.getElem_mem hk))
      rw [e1]
      dsimp only
      have hs := off_succ h.good hk
      by_cases hle : left ≤ packetSize ps[k].raw
      · rw [if_pos hle]
        exact ⟨.ok, u1, left, count, k + 1, rfl, Or.inl rfl, by omega, ha1, hm1, Or.inl hlim⟩
      · rw [if_neg hle]
        obtain ⟨rc, u', l, c, k', e', hrc, hk', ha', hm', hlim'⟩ :=
          ackLoop_spec h hne hl ht n u1 (left - packetSize ps[k].raw) (count + 1) (k + 1) ha1 (by omega) (by omega)
        refine ⟨rc, u', l, c, k', e', hrc, by omega, ha', hm1.trans hm', ?_⟩
        rcases hlim' with hx | hx
        · exact Or.inl hx
        · rw [hx]; exact Or.inl hlim

theorem fuel_enough {t : Track} {ps : List Packet} {S : List UInt8} {v : Nat} (h : Shown t ps S v) (k : Nat) :
    v < fuel t + off ps k ∧ 0 < fuel t := by
  have := h.vis
  have := h.mem.written
  unfold fuel
  omega

theorem ackAll_spec {t : Track} {ps : List Packet} {S : List UInt8} {v : Nat} (h : Shown t ps S v) (hne : NoEos ps)
    {u : Up} {k : Nat} (ha : Acked t ps u k) (hl : ackLimit t u ≤ v) (ht : ackLimit t u < total t) :
    ∃ u' k', ackAll t u = .ok (true, u') ∧ k ≤ k' ∧ Acked t ps u' k' ∧ Moves u u' ∧
      ((off ps k' : Int) ≤ ackLimit t u ∨ k' = k) := by
  obtain ⟨hf, hf0⟩ := fuel_enough h k
  obtain ⟨rc, u', l, c, k', e, hrc, hk, ha', hm, hlim⟩ := ackLoop_spec h hne hl ht (fuel t) u maxSize 0 k ha hf hf0
  refine ⟨u', k', ?_, hk, ha', hm, hlim⟩
  unfold ackAll
  rw [e]
  rcases hrc with hrc | hrc <;> rw [hrc]

/-! ## Acks from the peer -/

/-- What an ack of frame `id` must find: packets `j` further on, within what was sent and without end of stream,
so that the last of them is a frame and `id` the number of the next frame. -/
def Reaches (ps : List Packet) (first : Nat) (sent : Int) (k id j : Nat) : Prop :=
  k < j ∧ j ≤ ps.length ∧ first + frames (ps.take j) = id ∧ first + frames (ps.take (j - 1)) < id ∧
  (off ps j : Int) ≤ sent ∧ ∀ i, k ≤ i → (h : i < ps.length) → i < j → ptype ps[i].raw ≠ tEos

theorem reaches_step {ps : List Packet} {first : Nat} {sent : Int} {k id j : Nat} (hk : k < ps.length)
    (hn : ptype ps[k].raw ≠ tEos) (h : Reaches ps first sent (k + 1) id j) : Reaches ps first sent k id j := by
  obtain ⟨h1, h2, h3, h4, h5, h6⟩ := h
  refine ⟨by omega, h2, h3, h4, h5, fun i hi hl hij => ?_⟩
  rcases Nat.eq_or_lt_of_le hi with he | he
  · subst he; exact hn
  · exact h6 i he hl hij

theorem ackFramesLoop_spec {t : Track} {ps : List Packet} {S : List UInt8} {v : Nat} (h : Shown t ps S v) (id : Nat) :
    ∀ (n : Nat) (u : Up) (k : Nat), Acked t ps u k → sentOff u ≤ v → sentOff u < total t → v < n + off ps k → 0 < n →
    (id ≤ u.frame → ackFramesLoop t n u id = .ok (true, u)) ∧
    (u.frame < id →
      (∃ u' j, ackFramesLoop t n u id = .ok (true, u') ∧ Acked t ps u' j ∧ Moves u u' ∧
        Reaches ps (field t.connect 80 8) (sentOff u) k id j) ∨
      ((∃ u', ackFramesLoop t n u id = .ok (false, u') ∧ Moves u u') ∧
        ∀ j, ¬Reaches ps (field t.connect 80 8) (sentOff u) k id j))
  | 0, _, _, _, _, _, _, h0 => absurd h0 (by omega)
  | n + 1, u, k, ha, hl, ht, hf, _ => by
    constructor
    · intro hid
      unfold ackFramesLoop
      rw [if_neg (by omega)]
    · intro hid
      unfold ackFramesLoop
      rw [if_pos hid]
      have hac := ha.acked
      have none_if (hx : k < ps.length → sentOff u < off ps (k + 1)) (j : Nat) :
          ¬Reaches ps (field t.connect 80 8) (sentOff u) k id j := by
        intro ⟨h1, h2, _, _, h5, _⟩
        have h6 := hx (by omega)
        have := off_mono ps (show k + 1 ≤ j by omega)
        omega
      by_cases hc : (u.acked : Int) + 16 > sentOff u
      · rw [if_pos hc]
        right
        refine ⟨⟨u, rfl, Moves.refl u⟩, none_if fun hk => ?_⟩
        have := off_succ h.good hk
        omega
      · rw [if_neg hc]
        have hk : k < ps.length := lt_length h.inps (by omega)
        have hvis := h.vis
        obtain ⟨r, e, hr⟩ := read_spec h.mem (n := 16) ha.reader (by omega) (by omega)
        rw [e]
        dsimp only
        have hs := off_succ h.good hk
        rw [shown_slice h (show off ps k + 16 ≤ v by omega), header_at h.good hk,
          sendable_size (h.good _ (List.getElem_mem hk))]
        by_cases hd : (u.acked : Int) + ↑(16 + ps[k].body.length) > sentOff u
        · rw [if_pos hd]
          right
          exact ⟨⟨_, rfl, rfl⟩, none_if fun _ => by omega⟩
        · rw [if_neg hd]
          obtain ⟨hE, hN⟩ := ackPacket_spec h ha hk hr (by omega) (by omega)
          by_cases he : ptype ps[k].raw = tEos
          · rw [hE he]
            right
            refine ⟨⟨_, rfl, rfl⟩, fun j ⟨h1, h2, _, _, _, h6⟩ => h6 k (Nat.le_refl _) hk h1 he⟩
          · obtain ⟨u1, e1, ha1, hm1⟩ := hN he
            rw [e1]
            dsimp only
            have hso := hm1.sentOff
            obtain ⟨ih1, ih2⟩ := ackFramesLoop_spec h id n u1 (k + 1) ha1 (by omega) (by omega) (by omega) (by omega)
            have hfs := frames_succ hk
            have hff := ha.frame
            have hff1 := ha1.frame
            rcases Nat.lt_or_ge u1.frame id with hlt | hge
            · rcases ih2 hlt with ⟨u', j, e', ha', hm', hr'⟩ | ⟨⟨u', e', hm'⟩, hno⟩
              · left
                rw [hso] at hr'
                exact ⟨u', j, e', ha', hm1.trans hm', reaches_step hk he hr'⟩
              · right
                refine ⟨⟨u', e', hm1.trans hm'⟩, fun j ⟨h1, h2, h3, h4, h5, h6⟩ => ?_⟩
                rcases Nat.eq_or_lt_of_le h1 with hj | hj
                · rw [← hj] at h3
                  have h3' : field t.connect 80 8 + frames (ps.take (k + 1)) = id := h3
                  omega
                · exact hno j ⟨hj, h2, h3, h4, by rw [hso]; exact h5, fun i hi => h6 i (by omega)⟩
            · left
              rw [ih1 hge]
              refine ⟨u1, k + 1, rfl, ha1, hm1, by omega, by omega, ?_, ?_, by omega, ?_⟩
              · split at hfs <;> omega
              · rw [Nat.add_sub_cancel]; omega
              · intro i hi hl' hij
                have : i = k := by omega
                subst this; exact he

end Verif.KmpOut
