import Verif.KmpOutAck

/-!
# One KMP upstream: what it has sent and what it will send (lemmas for C20, C21, C22)
-/

namespace Verif.KmpOut

open Verif.KmpIn (field ptype hsize dsize tMediaInfo tFrame tNull tEos tConnect Packet Valid Whole frames frames_append
  frames_one)
open Verif.BufStream (Stream)

/-- What a connection that starts behind the first `k` packets sends before the packets: the connect packet with
the number of the next frame, the data of the connect packet, and the media info in force. -/
def head (connect connectData : List UInt8) (ps : List Packet) (k up offset : Nat) : List UInt8 :=
  connectPacket connect connectData.length (field connect 80 8 + frames (ps.take k)) up offset ++ connectData ++
  infoOf (ps.take k)

/-- The connection started behind the first `k0` packets: the socket has taken the first bytes of the head and of
the packets behind `k0`, and the chain of buffers goes on from there to what was handed out. -/
structure Sent (t : Track) (ps : List Packet) (v : Nat) (u : Up) (k0 : Nat) (H : List UInt8) (os : List (List UInt8))
    (rs : List Chunk) : Prop where
  start : k0 ≤ ps.length
  base  : u.sentBase = (off ps k0 : Int) - H.length
  wire  : u.wire = (H ++ (stream ps).drop (off ps k0)).take u.wire.length
  le    : off ps k0 ≤ u.acked
  ahead : u.acked ≤ off ps k0 + (u.wire.length - H.length)
  vis   : off ps k0 + (u.wire.length - H.length) ≤ v
  busy  : u.busy = os.map .own ++ rs
  own   : os.flatten = H.drop u.wire.length
  refs  : Covers t.cap rs (off ps k0 + (u.wire.length - H.length)) (sofar t)

/-- The first `k` packets end with a frame. -/
def Canon (ps : List Packet) (k : Nat) : Prop := k = 0 ∨ frames (ps.take (k - 1)) < frames (ps.take k)

/-- The bytes that a connection took are the start of a connect packet with the id behind the first `k0` packets, the
media info there and the packets from there on; the `k0` packets are acked. -/
def Legit (connect connectData : List UInt8) (ps : List Packet) (acked : Nat) (wire : List UInt8) : Prop :=
  wire = [] ∨ ∃ k0 up o, k0 ≤ ps.length ∧ off ps k0 ≤ acked ∧
    wire <+: head connect connectData ps k0 up o ++ stream (ps.drop k0)

/-- `calm`: every upstream has the last acked policy, and there is no memory pressure. -/
structure UpInv (calm : Bool) (t : Track) (ps : List Packet) (v : Nat) (u : Up) : Prop where
  acked : ∃ k, Acked t ps u k ∧ (calm = true → Canon ps k)
  low   : u.acked ≤ v
  lt    : u.acked < total t
  calm  : calm = true → u.policy = .lastAcked ∧ u.acked ≤ sofar t
  idle  : u.last = false → u.busy = [] ∧ (u.conn = true → u.wire = []) ∧ u.sentBase ≤ u.acked
  live  : u.last = true → u.conn = true ∧
    ∃ k0 up o os rs, Sent t ps v u k0 (head t.connect u.connectData ps k0 up o) os rs
  old   : u.last = false → Legit t.connect u.connectData ps u.acked u.wire

/-- What is known of the track. -/
structure Ctx (calm : Bool) (t : Track) (ps : List Packet) (S : List UInt8) (v : Nat) : Prop where
  shown  : Shown t ps S v
  frameV : t.lastFrame ≤ v
  frameT : t.lastFrame < total t
  eos    : calm = false → NoEos ps

theorem Acked.of_moves {t : Track} {ps : List Packet} {u : Up} {k : Nat} (h : Acked t ps u k) {u' : Up}
    (h1 : u'.acked = u.acked) (h2 : u'.reader = u.reader) (h3 : u'.frame = u.frame) (h4 : u'.info = u.info) :
    Acked t ps u' k :=
  ⟨h.le, by rw [h1]; exact h.acked, by rw [h2]; exact h.reader, by rw [h3]; exact h.frame, by rw [h4]; exact h.info⟩

theorem legit_mono {connect cd : List UInt8} {ps : List Packet} {a a' : Nat} {w : List UInt8} (h : Legit connect cd ps a w)
    (hle : a ≤ a') : Legit connect cd ps a' w := by
  rcases h with h | ⟨k0, up, o, h1, h2, h3⟩
  · exact Or.inl h
  · exact Or.inr ⟨k0, up, o, h1, by omega, h3⟩

theorem sent_legit {t : Track} {ps : List Packet} {v : Nat} {u : Up} {connect cd : List UInt8} {k0 up o : Nat} {os : List (List UInt8)}
    {rs : List Chunk} (h : Sent t ps v u k0 (head connect cd ps k0 up o) os rs) : Legit connect cd ps u.acked u.wire := by
  refine Or.inr ⟨k0, up, o, h.start, h.le, ?_⟩
  rw [h.wire, stream_drop]
  exact List.take_prefix _ _

/-- What was sent, whether the connection is there or not. -/
theorem UpInv.legit {calm : Bool} {t : Track} {ps : List Packet} {v : Nat} {u : Up} (h : UpInv calm t ps v u) :
    Legit t.connect u.connectData ps u.acked u.wire := by
  cases hl : u.last
  · exact h.old hl
  · obtain ⟨_, k0, up, o, os, rs, hs⟩ := h.live hl
    exact sent_legit hs

theorem sent_off {t : Track} {ps : List Packet} {v : Nat} {u : Up} {k0 : Nat} {H : List UInt8} {os : List (List UInt8)}
    {rs : List Chunk} (h : Sent t ps v u k0 H os rs) :
    sentOff u ≤ (off ps k0 + (u.wire.length - H.length) : Nat) := by
  have := h.base
  unfold sentOff
  omega

/-- What counts as sent is visible. -/
theorem sentOff_vis {calm : Bool} {t : Track} {ps : List Packet} {v : Nat} {u : Up} (h : UpInv calm t ps v u)
    (hc : u.conn = true) : sentOff u ≤ v := by
  cases hl : u.last
  · obtain ⟨_, h2, h3⟩ := h.idle hl
    have h4 := h.low
    unfold sentOff
    rw [h2 hc, List.length_nil]
    omega
  · obtain ⟨_, k0, up, o, os, rs, hs⟩ := h.live hl
    have h1 := sent_off hs
    have h2 := hs.vis
    omega

/-- Moving the acked position, not beyond what was sent. -/
theorem upinv_move {calm : Bool} {t : Track} {ps : List Packet} {v : Nat} {u u' : Up} (h : UpInv calm t ps v u)
    (hm : Moves u u') {k : Nat} (ha : Acked t ps u' k) (hcan : calm = true → Canon ps k) (hle : u.acked ≤ u'.acked)
    (hv : u'.acked ≤ v) (ht : u'.acked < total t)
    (hs : u.last = true → (u'.acked : Int) ≤ sentOff u ∨ u'.acked = u.acked)
    (hi : calm = true → u.last = false → u'.acked = u.acked) : UpInv calm t ps v u' := by
  have e1 : u'.policy = u.policy := by rw [hm]
  have e2 : u'.last = u.last := by rw [hm]
  have e3 : u'.busy = u.busy := by rw [hm]
  have e4 : u'.conn = u.conn := by rw [hm]
  have e5 : u'.wire = u.wire := by rw [hm]
  have e6 : u'.sentBase = u.sentBase := by rw [hm]
  have e7 : u'.connectData = u.connectData := by rw [hm]
  refine ⟨⟨k, ha, hcan⟩, hv, ht, ?_, ?_, ?_, fun _ => by rw [e5, e7]; exact legit_mono h.legit hle⟩
  · intro hc
    refine ⟨by rw [e1]; exact (h.calm hc).1, ?_⟩
    have h0 := (h.calm hc).2
    cases hl : u.last
    · rw [hi hc hl]; exact h0
    · obtain ⟨_, k0, up, o, os, rs, hsent⟩ := h.live hl
      have h1 := sent_off hsent
      have h2 := covers_le hsent.refs
      rcases hs hl with hx | hx <;> omega
  · intro hl
    rw [e2] at hl
    obtain ⟨h1, h2, h3⟩ := h.idle hl
    rw [e3, e4, e5, e6]
    exact ⟨h1, h2, by omega⟩
  · intro hl
    rw [e2] at hl
    obtain ⟨hc, k0, up, o, os, rs, hsent⟩ := h.live hl
    rw [e4]
    refine ⟨hc, k0, up, o, os, rs, ?_⟩
    rw [e7]
    have h1 := sent_off hsent
    have h2 := hsent.le
    have h3 := hsent.ahead
    refine ⟨hsent.start, by rw [e6]; exact hsent.base, by rw [e5]; exact hsent.wire, by omega, ?_,
      by rw [e5]; exact hsent.vis, by rw [e3]; exact hsent.busy, by rw [e5]; exact hsent.own,
      by rw [e5]; exact hsent.refs⟩
    rw [e5]
    rcases hs hl with hx | hx <;> omega

/-- The limit of the automatic ack is visible. -/
theorem limit_vis {calm : Bool} {t : Track} {ps : List Packet} {S : List UInt8} {v : Nat} (hx : Ctx calm t ps S v) {u : Up}
    (h : UpInv calm t ps v u) : ackLimit t u ≤ v := by
  unfold ackLimit
  split
  · next hl => exact sentOff_vis h (h.live hl).1
  · have := hx.frameV; omega

/-- An automatic ack. -/
theorem upinv_ackAll {t : Track} {ps : List Packet} {S : List UInt8} {v : Nat} (hx : Ctx false t ps S v) {u : Up}
    (h : UpInv false t ps v u) (hr : u.last = true → S.length < total t) :
    ∃ u', ackAll t u = .ok (true, u') ∧ UpInv false t ps v u' ∧ Moves u u' := by
  obtain ⟨k, ha, _⟩ := h.acked
  have hl := limit_vis hx h
  have hvis := hx.shown.vis
  have ht : ackLimit t u < total t := by
    cases hlast : u.last
    · unfold ackLimit; rw [hlast]
      have := hx.frameT
      simp only [Bool.false_eq_true, if_false]
      omega
    · have := hr hlast
      omega
  obtain ⟨u', k', e, hk, ha', hm, hlim⟩ := ackAll_spec hx.shown (hx.eos rfl) ha hl ht
  refine ⟨u', e, ?_, hm⟩
  have hac := ha.acked
  have hac' := ha'.acked
  have hmono := off_mono ps hk
  have hlow := h.low
  have hlt := h.lt
  have hcase : (u'.acked : Int) ≤ ackLimit t u ∨ u'.acked = u.acked := by
    rcases hlim with hx' | hx'
    · left; omega
    · right; rw [hac', hx', hac]
  refine upinv_move h hm ha' (by simp) (by omega) ?_ ?_ ?_ (by simp)
  · rcases hcase with h1 | h1 <;> omega
  · rcases hcase with h1 | h1 <;> omega
  · intro hlast
    unfold ackLimit at hcase
    rw [if_pos hlast] at hcase
    exact hcase

/-- An upstream that gives up its connection. -/
theorem upinv_drop {calm : Bool} {t : Track} {ps : List Packet} {v : Nat} {u : Up} (h : UpInv calm t ps v u)
    (b : List Chunk) (hb : b = []) :
    UpInv calm t ps v { u with conn := false, last := false, busy := b } := by
  obtain ⟨k, ha, hcan⟩ := h.acked
  refine ⟨⟨k, ha.of_moves rfl rfl rfl rfl, hcan⟩, h.low, h.lt, h.calm, ?_, ?_, fun _ => h.legit⟩
  · intro _
    refine ⟨hb, (fun hc => nomatch hc), ?_⟩
    show u.sentBase ≤ u.acked
    cases hl : u.last
    · exact (h.idle hl).2.2
    · obtain ⟨_, k0, up, o, os, rs, hs⟩ := h.live hl
      have h1 := hs.base
      have h2 := hs.le
      omega
  · intro hl; exact nomatch hl

/-- `ngx_kmp_out_upstream_republish`: declined, or the upstream has no connection and waits for one. -/
theorem upinv_republish {calm : Bool} {t : Track} {ps : List Packet} {S : List UInt8} {v : Nat} (hx : Ctx calm t ps S v)
    {u : Up} (h : UpInv calm t ps v u) (allowed : Bool) :
    republish t u allowed = .ok (.declined, u) ∨
    ∃ u', republish t u allowed = .ok (.ok, u') ∧ UpInv calm t ps v u' ∧ u'.last = false := by
  unfold republish
  by_cases hd : (u.noRepublish || !allowed) = true
  · left; rw [if_pos hd]
  · right
    rw [if_neg hd]
    dsimp only
    by_cases hb : (u.last && u.busy.isEmpty) = true
    · rw [if_pos hb]
      have hbe : u.busy = [] := by
        rw [Bool.and_eq_true] at hb
        exact List.isEmpty_iff.1 hb.2
      exact ⟨_, rfl, upinv_drop h u.busy hbe, rfl⟩
    · rw [if_neg hb]
      have hbe : (if u.last = true then ([] : List Chunk) else u.busy) = [] := by
        split
        · rfl
        · next hl => exact (h.idle (by simpa using hl)).1
      have hu := upinv_drop h _ hbe
      by_cases hp : u.policy = .lastWritten
      · rw [if_pos hp]
        have hcalm : calm = false := by
          cases calm
          · rfl
          · have := (h.calm rfl).1; rw [hp] at this; exact nomatch this
        subst hcalm
        obtain ⟨u', e, hu', hm⟩ := upinv_ackAll hx hu (fun hl => nomatch hl)
        rw [e]
        exact ⟨u', rfl, hu', by rw [hm]⟩
      · rw [if_neg hp]
        exact ⟨_, rfl, hu, rfl⟩

theorem upinv_error {calm : Bool} {t : Track} {ps : List Packet} {S : List UInt8} {v : Nat} (hx : Ctx calm t ps S v)
    {u : Up} (h : UpInv calm t ps v u) (allowed : Bool) :
    upError t u allowed = .ok none ∨ ∃ u', upError t u allowed = .ok (some u') ∧ UpInv calm t ps v u' := by
  unfold upError
  rcases upinv_republish hx h allowed with e | ⟨u', e, hu, _⟩
  · left; rw [e]
  · right; rw [e]; exact ⟨u', rfl, hu⟩

/-- The automatic ack under memory pressure. -/
theorem upinv_autoAck {t : Track} {ps : List Packet} {S : List UInt8} {v : Nat} (hx : Ctx false t ps S v) {u : Up}
    (h : UpInv false t ps v u) (hr : S.length < total t) (left : Nat) (allowed : Bool) :
    ∃ n u', autoAck t u left allowed = .ok (some n, u') ∧ UpInv false t ps v u' := by
  obtain ⟨k, ha, _⟩ := h.acked
  have hl := limit_vis hx h
  have hvis := hx.shown.vis
  obtain ⟨hf, hf0⟩ := fuel_enough hx.shown k
  obtain ⟨rc, u1, l, c, k', e, hrc, hk, ha', hm, hlim⟩ :=
    ackLoop_spec hx.shown (hx.eos rfl) hl (by omega) (fuel t) u left 0 k ha hf hf0
  have hac := ha.acked
  have hac' := ha'.acked
  have hmono := off_mono ps hk
  have hlow := h.low
  have hlt := h.lt
  have hcase : (u1.acked : Int) ≤ ackLimit t u ∨ u1.acked = u.acked := by
    rcases hlim with hx' | hx'
    · left; omega
    · right; rw [hac', hx', hac]
  have hu1 : UpInv false t ps v u1 := by
    refine upinv_move h hm ha' (by simp) (by omega) ?_ ?_ ?_ (by simp)
    · rcases hcase with h1 | h1 <;> omega
    · rcases hcase with h1 | h1 <;> omega
    · intro hlast
      unfold ackLimit at hcase
      rw [if_pos hlast] at hcase
      exact hcase
  unfold autoAck
  rw [e]
  rcases hrc with hrc | hrc
  · rw [hrc]; exact ⟨_, _, rfl, hu1⟩
  · rw [hrc]
    dsimp only
    cases hlast : u1.last
    · exact ⟨_, _, rfl, hu1⟩
    · simp only [if_true]
      rcases upinv_republish hx hu1 allowed with e2 | ⟨u2, e2, hu2, hl2⟩
      · rw [e2]
        dsimp only
        rw [hlast, if_pos rfl]
        exact ⟨_, _, rfl, hu1⟩
      · rw [e2]
        dsimp only
        rw [hl2]
        simp only [Bool.false_eq_true, if_false]
        obtain ⟨k2, ha2, _⟩ := hu2.acked
        obtain ⟨hf2, hf02⟩ := fuel_enough hx.shown k2
        have hfv := hx.frameV
        have hft := hx.frameT
        obtain ⟨rc3, u3, l3, c3, k3, e3, hrc3, hk3, ha3, hm3, hlim3⟩ :=
          ackLoop_spec hx.shown (hx.eos rfl) (limit := (t.lastFrame : Int)) (by omega) (by omega) (fuel t) u2 l (c + 1) k2 ha2 hf2 hf02
        rw [e3]
        have hac2 := ha2.acked
        have hac3 := ha3.acked
        have hmono3 := off_mono ps hk3
        have hlow2 := hu2.low
        have hlt2 := hu2.lt
        have hu3 : UpInv false t ps v u3 := by
          refine upinv_move hu2 hm3 ha3 (by simp) (by omega) ?_ ?_ (fun hc => ?_) (by simp)
          · rcases hlim3 with h1 | h1
            · omega
            · rw [h1] at hac3; omega
          · rcases hlim3 with h1 | h1
            · omega
            · rw [h1] at hac3; omega
          · rw [hl2] at hc; exact nomatch hc
        rcases hrc3 with h4 | h4 <;> rw [h4] <;> exact ⟨_, _, rfl, hu3⟩

/-- The sum of the lengths of the own buffers of a new connection. -/
theorem own_flatten (a b c : List UInt8) : ([a] ++ (if b.isEmpty then [] else [b]) ++ (if c.isEmpty then [] else [c])).flatten
    = a ++ b ++ c := by
  cases b <;> cases c <;> simp

theorem own_map (a b c : List UInt8) : [Chunk.own a] ++ (if b.isEmpty then [] else [.own b]) ++ (if c.isEmpty then [] else [.own c])
    = ([a] ++ (if b.isEmpty then [] else [b]) ++ (if c.isEmpty then [] else [c])).map .own := by
  cases b <;> cases c <;> simp

/-- `ngx_kmp_out_upstream_send_buffered`: a new connection starts behind the acked packets. -/
theorem upinv_sendBuffered {calm : Bool} {t : Track} {ps : List Packet} {S : List UInt8} {v : Nat} (hx : Ctx calm t ps S v)
    {u : Up} (h : UpInv calm t ps v u) (hc : u.conn = true) (hl : u.last = false) (hA : u.acked ≤ sofar t) :
    ∃ u', sendBuffered t u = .ok u' ∧ UpInv calm t ps v u' ∧
      u' = { u with sentBase := u'.sentBase, last := true, busy := u'.busy } := by
  obtain ⟨k, ha, hcan⟩ := h.acked
  obtain ⟨_, h2, _⟩ := h.idle hl
  have hw := h2 hc
  have hac := ha.acked
  have hnode : u.reader.node < t.base + t.nodes.length := by
    rw [ha.reader.same]
    have h3 := ha.reader.pos
    have h4 := h.lt
    unfold total at h4
    exact Nat.lt_of_mul_lt_mul_right (show u.reader.posNode * t.cap < _ by omega)
  have hbase : t.base ≤ u.reader.node := by rw [ha.reader.same]; exact ha.reader.alive
  unfold sendBuffered
  rw [if_neg (by omega)]
  refine ⟨_, rfl, ?_, rfl⟩
  have hposcap : t.pos ≤ t.cap := Nat.le_trans hx.shown.mem.pos hx.shown.mem.last
  have hcov := refs_covers t.cap t.pos hposcap (t.base + t.nodes.length - u.reader.node) u.reader.node u.reader.posOff
    (by omega) ha.reader.inside
  have e1 : u.reader.node + (t.base + t.nodes.length - u.reader.node) - 1 = t.base + t.nodes.length - 1 := by omega
  have e2 : (t.base + t.nodes.length - 1) * t.cap + t.pos = sofar t := rfl
  have e3 : u.reader.node * t.cap + u.reader.posOff = off ps k := by rw [ha.reader.same]; exact ha.reader.pos
  rw [e1, e2, e3] at hcov
  refine ⟨⟨k, ha.of_moves rfl rfl rfl rfl, hcan⟩, h.low, h.lt, h.calm, (fun hc' => nomatch hc'), fun _ => ⟨hc, ?_⟩,
    (fun hc' => nomatch hc')⟩
  refine ⟨k, u.upFrame, u.offset,
    [connectPacket t.connect u.connectData.length u.frame u.upFrame u.offset] ++
      (if u.connectData.isEmpty then [] else [u.connectData]) ++ (if u.info.isEmpty then [] else [u.info]),
    refs t.cap t.pos (t.base + t.nodes.length - u.reader.node) u.reader.node u.reader.posOff, ?_⟩
  refine ⟨ha.le, ?_, ?_, ?_, ?_, ?_, ?_, ?_, ?_⟩
  · show (u.acked : Int) - u.wire.length - _ - _ - _ = _
    unfold head
    rw [hw, List.length_append, List.length_append, ← ha.info, ← ha.frame, hac, List.length_nil]
    simp only [Int.natCast_add]
    omega
  · show u.wire = List.take u.wire.length _
    rw [hw]; simp
  · show off ps k ≤ u.acked
    omega
  · show u.acked ≤ off ps k + _
    omega
  · show off ps k + (u.wire.length - _) ≤ v
    have := h.low
    rw [hw, List.length_nil]
    omega
  · show [Chunk.own _] ++ _ ++ _ ++ _ = _
    rw [own_map]
  · show _ = List.drop u.wire.length _
    rw [hw, List.length_nil, List.drop_zero, own_flatten]
    unfold head
    rw [← ha.info, ← ha.frame]
  · show Covers t.cap _ (off ps k + (u.wire.length - _)) (sofar t)
    rw [hw, List.length_nil, Nat.zero_sub, Nat.add_zero]
    exact hcov (by rw [← hac]; exact hA)

/-- What a socket takes from the chain continues what it took before. -/
theorem upinv_take {calm : Bool} {t : Track} {ps : List Packet} {S : List UInt8} {v : Nat} (hx : Ctx calm t ps S v) {u : Up}
    (h : UpInv calm t ps v u) (hl : u.last = true) (hv : v = S.length) (hn : t.nodes ≠ []) (n : Nat) :
    ∃ b rest, takeChunks t u.busy n = .ok (b, rest) ∧ UpInv calm t ps v { u with wire := u.wire ++ b, busy := rest } := by
  obtain ⟨hc, k0, up, o, os, rs, hs⟩ := h.live hl
  obtain ⟨k, ha, hcan⟩ := h.acked
  have hm := hx.shown.mem
  have hsof : sofar t ≤ S.length := by
    have h1 := hm.place hn
    have h2 := hm.pos
    unfold sofar; omega
  have hle := covers_le hs.refs
  have hahead := hs.ahead
  have hbase : t.base * t.cap ≤ off ps k0 + (u.wire.length - (head t.connect u.connectData ps k0 up o).length) := by
    have := at_base ha.reader
    have := ha.acked
    omega
  generalize hH : head t.connect u.connectData ps k0 up o = H at hs hle hahead hbase
  have hown := hs.own
  have hrefs := hs.refs
  have hvis := hs.vis
  have hle2 := hs.le
  have hbs := hs.base
  have hbusy := hs.busy
  have hwire := hs.wire
  have hinps := hx.shown.inps
  have hstart := hs.start
  clear hs
  generalize hX : H ++ (stream ps).drop (off ps k0) = X at hwire
  have hXl : X.length = H.length + ((stream ps).length - off ps k0) := by
    rw [← hX, List.length_append, List.length_drop]
  have hwl : u.wire.length ≤ X.length := by
    have := congrArg List.length hwire
    rw [List.length_take] at this
    omega
  generalize hm' : u.wire.length = m at *
  generalize ha' : off ps k0 + (m - H.length) = a at *
  obtain ⟨os', rs', e, ho, hr⟩ := take_spec hm rs a (sofar t) hrefs hbase hsof os n
  rw [hbusy, e]
  refine ⟨_, _, rfl, ?_⟩
  have hL : os.flatten.length = H.length - m := by rw [hown, List.length_drop]
  have key : os.flatten ++ (S.drop a).take (sofar t - a) = (X.drop m).take (H.length - m + (sofar t - a)) := by
    rw [← hX, List.drop_append, List.take_append, List.drop_drop, ha', hown,
      List.take_of_length_le (l := H.drop m) (by rw [List.length_drop]; omega), List.length_drop,
      Nat.add_sub_cancel_left, shown_slice hx.shown (by omega)]
  have hNle : H.length - m + (sofar t - a) ≤ (X.drop m).length := by
    rw [List.length_drop, hXl]
    omega
  rw [key, List.take_take]
  have hlen : ((X.drop m).take (min n (H.length - m + (sofar t - a)))).length = min n (H.length - m + (sofar t - a)) := by
    rw [List.length_take]; omega
  have hwlen : (u.wire ++ (X.drop m).take (min n (H.length - m + (sofar t - a)))).length
      = m + min n (H.length - m + (sofar t - a)) := by
    rw [List.length_append, hlen, hm']
  refine ⟨⟨k, ha.of_moves rfl rfl rfl rfl, hcan⟩, h.low, h.lt, h.calm, ?_, fun _ => ⟨hc, ?_⟩, fun hc' => ?_⟩
  · intro hc'
    have hc'' : u.last = false := hc'
    rw [hl] at hc''; exact nomatch hc''
  · refine ⟨k0, up, o, os', rs', ?_⟩
    have hacc : a ≤ off ps k0 + (m + min n (H.length - m + (sofar t - a)) - H.length) := by omega
    constructor
    · exact hstart
    · show u.sentBase = _
      rw [hH]; exact hbs
    · show u.wire ++ _ = List.take (u.wire ++ _).length _
      rw [hwlen, hH, hX, List.take_add, ← hwire]
    · exact hle2
    · show u.acked ≤ off ps k0 + ((u.wire ++ _).length - _)
      rw [hwlen, hH]; omega
    · show off ps k0 + ((u.wire ++ _).length - _) ≤ v
      rw [hwlen, hH]
      omega
    · rfl
    · show os'.flatten = List.drop (u.wire ++ _).length _
      rw [hwlen, hH, ho, hown, List.drop_drop]
      by_cases hnn : n ≤ H.length - m + (sofar t - a)
      · rw [Nat.min_eq_left hnn]
      · rw [List.drop_of_length_le (by omega), List.drop_of_length_le (by omega)]
    · show Covers t.cap rs' (off ps k0 + ((u.wire ++ _).length - _)) (sofar t)
      rw [hwlen, hH]
      rw [hL] at hr
      have : off ps k0 + (m + min n (H.length - m + (sofar t - a)) - H.length) = min (a + (n - (H.length - m))) (sofar t) := by
        omega
      rw [this]; exact hr
  · have hc'' : u.last = false := hc'
    rw [hl] at hc''; exact nomatch hc''

/-- `ngx_kmp_out_upstream_send_chain`. -/
theorem upinv_sendChain {calm : Bool} {t : Track} {ps : List Packet} {S : List UInt8} {v : Nat} (hx : Ctx calm t ps S v)
    {u : Up} (h : UpInv calm t ps v u) (hv : v = S.length) (hn : t.nodes ≠ []) (hr : S.length < total t) (io : Io) :
    ∃ ok u', sendChain t u io = .ok (ok, u') ∧ UpInv calm t ps v u' := by
  unfold sendChain
  cases hl : u.last
  · exact ⟨true, u, rfl, h⟩
  · simp only [if_true]
    cases io with
    | fail => exact ⟨false, u, rfl, h⟩
    | room n =>
      obtain ⟨b, rest, e, hu⟩ := upinv_take hx h hl hv hn n
      dsimp only
      rw [e]
      dsimp only
      by_cases hp : u.policy = .lastAcked
      · rw [if_pos hp]; exact ⟨true, _, rfl, by rw [hl] at hu; exact hu⟩
      · rw [if_neg hp]
        have hcalm : calm = false := by
          cases calm
          · rfl
          · exact absurd (h.calm rfl).1 hp
        subst hcalm
        obtain ⟨u', e', hu', _⟩ := upinv_ackAll hx hu (fun _ => hr)
        rw [hl] at e'
        exact ⟨true, u', e', hu'⟩

/-- `ngx_kmp_out_upstream_write_handler`. -/
theorem upinv_writeHandler {calm : Bool} {t : Track} {ps : List Packet} {S : List UInt8} {v : Nat} (hx : Ctx calm t ps S v)
    {u : Up} (h : UpInv calm t ps v u) (hc : u.conn = true) (hv : v = S.length) (hn : t.nodes ≠ [])
    (hr : S.length < total t) (hA : u.last = false → u.acked ≤ sofar t) (io : Io) (allowed : Bool) :
    writeHandler t u io allowed = .ok none ∨
    ∃ u', writeHandler t u io allowed = .ok (some u') ∧ UpInv calm t ps v u' := by
  unfold writeHandler
  have h1 : ∃ u1, (if u.last = true then Res.ok u else sendBuffered t u) = .ok u1 ∧ UpInv calm t ps v u1 := by
    cases hl : u.last
    · obtain ⟨u1, e, hu1, _⟩ := upinv_sendBuffered hx h hc hl (hA hl)
      exact ⟨u1, by simpa using e, hu1⟩
    · exact ⟨u, by simp, h⟩
  obtain ⟨u1, e1, hu1⟩ := h1
  rw [e1]
  dsimp only
  obtain ⟨ok, u2, e2, hu2⟩ := upinv_sendChain hx hu1 hv hn hr io
  rw [e2]
  cases ok
  · exact upinv_error hx hu2 allowed
  · exact Or.inr ⟨u2, rfl, hu2⟩

/-- `ngx_kmp_out_upstream_send`. -/
theorem upinv_send {calm : Bool} {t : Track} {ps : List Packet} {S : List UInt8} {v : Nat} (hx : Ctx calm t ps S v)
    {u : Up} (h : UpInv calm t ps v u) (hv : v = S.length) (hn : t.nodes ≠ []) (hr : S.length < total t) (io : Io)
    (allowed : Bool) :
    sendUp t u io allowed = .err ∨ ∃ u', sendUp t u io allowed = .ok u' ∧ UpInv calm t ps v u' := by
  unfold sendUp
  cases hc : u.conn
  · exact Or.inr ⟨u, by simp, h⟩
  · simp only [if_true]
    obtain ⟨ok, u2, e2, hu2⟩ := upinv_sendChain hx h hv hn hr io
    rw [e2]
    cases ok
    · dsimp only
      rcases upinv_republish hx hu2 allowed with e3 | ⟨u3, e3, hu3, _⟩
      · left; rw [e3]
      · right; rw [e3]; exact ⟨u3, rfl, hu3⟩
    · exact Or.inr ⟨u2, rfl, hu2⟩

/-- `ngx_kmp_out_upstream_append_buffer`: the chain goes on to the end of the active buffer. -/
theorem upinv_append {calm : Bool} {t : Track} {ps : List Packet} {S : List UInt8} {v : Nat} (hx : Ctx calm t ps S v)
    {u : Up} (h : UpInv calm t ps v u) (hp : t.pos < t.last) :
    ∃ u', appendBuffer t u = .ok u' ∧ UpInv calm { t with pos := t.last } ps v u' := by
  have hlast := hx.shown.mem.last
  have hsof : sofar { t with pos := t.last } = top t + t.last := rfl
  have keep : ∀ u' : Up, u'.last = false → UpInv calm t ps v u' → UpInv calm { t with pos := t.last } ps v u' := by
    intro u' hl hu
    obtain ⟨k, ha, hcan⟩ := hu.acked
    refine ⟨⟨k, ⟨ha.le, ha.acked, ⟨ha.reader.same, ha.reader.inside, ha.reader.pos, ha.reader.alive⟩, ha.frame, ha.info⟩, hcan⟩, hu.low, hu.lt, ?_, hu.idle, ?_, hu.old⟩
    · intro hc
      refine ⟨(hu.calm hc).1, ?_⟩
      have := (hu.calm hc).2
      rw [hsof]
      unfold sofar at this
      omega
    · intro hc; rw [hl] at hc; exact nomatch hc
  unfold appendBuffer
  cases hl : u.last
  · simp only [Bool.false_eq_true, if_false]
    by_cases hw : u.policy = .lastWritten
    · rw [if_pos hw]
      have hcalm : calm = false := by
        cases calm
        · rfl
        · have := (h.calm rfl).1; rw [hw] at this; exact nomatch this
      subst hcalm
      obtain ⟨u', e', hu', hm⟩ := upinv_ackAll hx h (fun hc => by rw [hl] at hc; exact nomatch hc)
      rw [e']
      exact ⟨u', rfl, keep u' (by rw [hm]; exact hl) hu'⟩
    · rw [if_neg hw]
      exact ⟨u, rfl, keep u hl h⟩
  · simp only [if_true]
    refine ⟨_, rfl, ?_⟩
    obtain ⟨k, ha, hcan⟩ := h.acked
    obtain ⟨hc, k0, up, o, os, rs, hs⟩ := h.live hl
    refine ⟨⟨k, ⟨ha.le, ha.acked, ⟨ha.reader.same, ha.reader.inside, ha.reader.pos, ha.reader.alive⟩, ha.frame, ha.info⟩, hcan⟩, h.low, h.lt, ?_, ?_, fun _ => ⟨hc, ?_⟩, (fun hc' => nomatch hc')⟩
    · intro hcalm
      refine ⟨(h.calm hcalm).1, ?_⟩
      have := (h.calm hcalm).2
      rw [hsof]
      unfold sofar at this
      show u.acked ≤ _
      omega
    · intro hc'
      exact nomatch hc'
    · refine ⟨k0, up, o, os, rs ++ [.ref (t.base + t.nodes.length - 1) t.pos t.last],
        ⟨hs.start, hs.base, hs.wire, hs.le, hs.ahead, hs.vis, ?_, hs.own, ?_⟩⟩
      · show u.busy ++ _ = _
        rw [hs.busy, List.append_assoc]
      · rw [hsof]
        exact covers_append hs.refs ⟨rfl, hp, hlast, rfl⟩

/-! ## Acks from the peer -/

theorem canon_reaches {ps : List Packet} {first : Nat} {sent : Int} {k id j : Nat} (h : Reaches ps first sent k id j) :
    Canon ps j := by
  obtain ⟨_, _, h3, h4, _, _⟩ := h
  right; omega

/-- `ngx_kmp_out_upstream_ack_frames` -/
theorem upinv_ackFrames {calm : Bool} {t : Track} {ps : List Packet} {S : List UInt8} {v : Nat} (hx : Ctx calm t ps S v)
    {u : Up} (h : UpInv calm t ps v u) (hc : u.conn = true) (hr : S.length < total t) (id up o : Nat) :
    ∃ ok u', ackFrames t u id up o = .ok (ok, u') ∧ u'.conn = true ∧
      (ok = true → UpInv calm t ps v u') ∧ (ok = false → u'.noRepublish = true) := by
  obtain ⟨k, ha, hcan⟩ := h.acked
  have hvs := sentOff_vis h hc
  have hvis := hx.shown.vis
  obtain ⟨hf, hf0⟩ := fuel_enough hx.shown k
  obtain ⟨h1, h2⟩ := ackFramesLoop_spec hx.shown id (fuel t) u k ha hvs (by omega) hf hf0
  have setUp : ∀ u' : Up, UpInv calm t ps v u' → UpInv calm t ps v { u' with upFrame := up, offset := o } := by
    intro u' hu
    obtain ⟨k, ha, hcan⟩ := hu.acked
    refine ⟨⟨k, ha.of_moves rfl rfl rfl rfl, hcan⟩, hu.low, hu.lt, hu.calm, hu.idle, ?_, hu.old⟩
    intro hl
    obtain ⟨hc, k0, up, o, os, rs, hs⟩ := hu.live hl
    exact ⟨hc, k0, up, o, os, rs, ⟨hs.start, hs.base, hs.wire, hs.le, hs.ahead, hs.vis, hs.busy, hs.own, hs.refs⟩⟩
  unfold ackFrames
  rcases Nat.lt_or_ge u.frame id with hlt | hge
  · rcases h2 hlt with ⟨u', j, e, ha', hm, hre⟩ | ⟨⟨u', e, hm⟩, _⟩
    · rw [e]
      refine ⟨true, _, rfl, by show u'.conn = true; rw [hm]; exact hc, fun _ => setUp u' ?_, fun hc => nomatch hc⟩
      have hac := ha.acked
      have hac' := ha'.acked
      have hmono := off_mono ps (show k ≤ j by have := hre.1; omega)
      have hle : (off ps j : Int) ≤ sentOff u := hre.2.2.2.2.1
      refine upinv_move h hm ha' (fun _ => canon_reaches hre) (by omega) (by omega) (by omega) (fun _ => Or.inl (by omega)) ?_
      intro _ hl
      exfalso
      obtain ⟨_, hw, hb⟩ := h.idle hl
      have hst := off_strict hx.shown.good hre.1 hre.2.1
      unfold sentOff at hle
      rw [hw hc, List.length_nil] at hle
      omega
    · rw [e]
      exact ⟨false, _, rfl, by show u'.conn = true; rw [hm]; exact hc, (fun hc => nomatch hc), fun _ => rfl⟩
  · rw [h1 hge]
    exact ⟨true, _, rfl, hc, fun _ => setUp u h, fun hc => nomatch hc⟩

theorem upinv_recv {calm : Bool} {t : Track} {ps : List Packet} {v : Nat} {u : Up} (h : UpInv calm t ps v u) (b : List UInt8) :
    UpInv calm t ps v { u with recv := b } := by
  obtain ⟨k, ha, hcan⟩ := h.acked
  refine ⟨⟨k, ha.of_moves rfl rfl rfl rfl, hcan⟩, h.low, h.lt, h.calm, h.idle, ?_, h.old⟩
  intro hl
  obtain ⟨hc, k0, up, o, os, rs, hs⟩ := h.live hl
  exact ⟨hc, k0, up, o, os, rs, ⟨hs.start, hs.base, hs.wire, hs.le, hs.ahead, hs.vis, hs.busy, hs.own, hs.refs⟩⟩

theorem upinv_parseAck {calm : Bool} {t : Track} {ps : List Packet} {S : List UInt8} {v : Nat} (hx : Ctx calm t ps S v)
    {u : Up} (h : UpInv calm t ps v u) (hc : u.conn = true) (hr : S.length < total t) (b : List UInt8) :
    ∃ ok u', parseAck t u b = .ok (ok, u') ∧ u'.conn = true ∧
      (ok = true → UpInv calm t ps v u') ∧ (ok = false → u'.noRepublish = true ∨ u' = u) := by
  unfold parseAck
  split
  · exact ⟨false, u, rfl, hc, (fun hc => nomatch hc), fun _ => Or.inr rfl⟩
  · split
    · exact ⟨false, u, rfl, hc, (fun hc => nomatch hc), fun _ => Or.inr rfl⟩
    · split
      · exact ⟨false, u, rfl, hc, (fun hc => nomatch hc), fun _ => Or.inr rfl⟩
      · split
        · exact ⟨true, u, rfl, hc, fun _ => h, fun hc => nomatch hc⟩
        · obtain ⟨ok, u', e, h1, h2, h3⟩ := upinv_ackFrames hx h hc hr (field b 16 8) (field b 24 8) (field b 32 4)
          exact ⟨ok, u', e, h1, h2, fun hk => Or.inl (h3 hk)⟩

theorem upinv_recvLoop {calm : Bool} {t : Track} {ps : List Packet} {S : List UInt8} {v : Nat} (hx : Ctx calm t ps S v)
    (hr : S.length < total t) : ∀ (n : Nat) (u : Up) (bytes : List UInt8), UpInv calm t ps v u → u.conn = true →
    bytes.length + (if u.recv.length < 40 then 0 else 1) < n →
    ∃ ok u', recvLoop t n u bytes = .ok (ok, u') ∧ (ok = true → UpInv calm t ps v u') ∧
      (ok = false → u'.noRepublish = true ∨ UpInv calm t ps v u')
  | 0, _, _, _, _, h0 => absurd h0 (by omega)
  | n + 1, u, bytes, h, hc, hn => by
    unfold recvLoop
    dsimp only
    by_cases hlt : bytes.length < 40 - u.recv.length
    · rw [if_pos hlt]
      exact ⟨true, _, rfl, fun _ => upinv_recv h _, fun hc => nomatch hc⟩
    · rw [if_neg hlt]
      obtain ⟨ok, u1, e, h1, h2, h3⟩ := upinv_parseAck hx (upinv_recv h []) hc hr (u.recv ++ bytes.take (40 - u.recv.length))
      rw [e]
      cases ok
      · refine ⟨false, u1, rfl, (fun hc => nomatch hc), fun _ => ?_⟩
        rcases h3 rfl with hx' | hx'
        · exact Or.inl hx'
        · rw [hx']; exact Or.inr (upinv_recv h [])
      · dsimp only
        have hrl : u1.recv = [] := by
          unfold parseAck at e
          repeat' split at e
          all_goals first
            | (simp only [Res.ok.injEq, Prod.mk.injEq, Bool.false_eq_true, false_and] at e; done)
            | skip
          · simp only [Res.ok.injEq, Prod.mk.injEq, true_and] at e
            rw [← e]
          · unfold ackFrames at e
            split at e
            · next u2 e2 =>
              simp only [Res.ok.injEq, Prod.mk.injEq, true_and] at e
              rw [← e]
              show u2.recv = []
              have hu0 := upinv_recv h []
              obtain ⟨k, ha, _⟩ := hu0.acked
              have hvs := sentOff_vis hu0 hc
              have hvis := hx.shown.vis
              obtain ⟨hf, hf0⟩ := fuel_enough hx.shown k
              obtain ⟨g1, g2⟩ := ackFramesLoop_spec hx.shown (field (u.recv ++ bytes.take (40 - u.recv.length)) 16 8)
                (fuel t) _ k ha hvs (by omega) hf hf0
              rcases Nat.lt_or_ge u.frame (field (u.recv ++ bytes.take (40 - u.recv.length)) 16 8) with hlt' | hge
              · rcases g2 hlt' with ⟨u', j, e', _, hm, _⟩ | ⟨⟨u', e', hm⟩, _⟩
                · rw [e'] at e2
                  simp only [Res.ok.injEq, Prod.mk.injEq, true_and] at e2
                  rw [← e2, hm]
                · rw [e'] at e2
                  simp at e2
              · rw [g1 hge] at e2
                simp only [Res.ok.injEq, Prod.mk.injEq, true_and] at e2
                rw [← e2]
            · simp at e
            · exact nomatch e
            · exact nomatch e
        exact upinv_recvLoop hx hr n u1 _ (h2 rfl) h1 (by
          rw [hrl, List.length_nil, if_pos (by omega), List.length_drop]
          split at hn <;> omega)

/-- `ngx_kmp_out_upstream_read_handler`. -/
theorem upinv_readHandler {calm : Bool} {t : Track} {ps : List Packet} {S : List UInt8} {v : Nat} (hx : Ctx calm t ps S v)
    (hr : S.length < total t) {u : Up} (h : UpInv calm t ps v u) (hc : u.conn = true) (bytes : List UInt8)
    (closed allowed : Bool) :
    readHandler t u bytes closed allowed = .ok none ∨
    ∃ u', readHandler t u bytes closed allowed = .ok (some u') ∧ UpInv calm t ps v u' := by
  obtain ⟨ok, u1, e, h1, h2⟩ := upinv_recvLoop hx hr (bytes.length + 2) u bytes h hc (by split <;> omega)
  unfold readHandler
  rw [e]
  dsimp only
  by_cases hok : (ok && !closed) = true
  · rw [if_pos hok]
    rw [Bool.and_eq_true] at hok
    exact Or.inr ⟨u1, rfl, h1 hok.1⟩
  · rw [if_neg hok]
    cases ok
    · rcases h2 rfl with hn | hu
      · left
        unfold upError republish
        rw [hn]
        rfl
      · exact upinv_error hx hu allowed
    · exact upinv_error hx (h1 rfl) allowed

end Verif.KmpOut
