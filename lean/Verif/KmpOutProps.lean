import Verif.KmpOutTrack

/-!
# C20, C21, C22: what a KMP sender keeps, resends and accepts
-/

namespace Verif.KmpOut

open Verif.KmpIn (field ptype hsize dsize tMediaInfo tFrame tNull tEos tConnect Packet Valid Whole frames frames_append
  frames_one)
open Verif.KmpInAck (bytesOf bytesOf_length)
open Verif.BufStream (Stream)

/-! ## Specification: histories -/

/-- The header of a marked frame is written over zeros. -/
theorem patch_mem {t : Track} {P Z D : List UInt8} (h : Mem t (P ++ Z ++ D)) (hb : t.base * t.cap ≤ P.length)
    {s : Stream} (ha : At t s P.length) (d : List UInt8) (hd : d.length = Z.length)
    (ht : P.length + Z.length < total t) :
    ∃ nodes s', BufStream.write t.nodes (shift s t.base) d = .ok (true, nodes, s') ∧
      Mem { t with nodes } (P ++ d ++ D) ∧ nodes.length = t.nodes.length := by
  have hs := at_sim h ha (by omega)
  have hr := BufStream.step_refines h.cap hs (.write d)
  have hlen := flatten_len h
  have htot : t.base * t.cap + t.nodes.flatten.length = total t := by unfold total; rw [hlen, Nat.add_mul]
  simp only [BufStream.Flat.step] at hr
  rw [if_pos (by right; omega)] at hr
  dsimp only at hr
  obtain ⟨q', s', e, hsim⟩ := hr
  unfold BufStream.step at e
  dsimp only at e
  split at e
  · next q1 s1 he =>
    simp only [Res.ok.injEq, Prod.mk.injEq, Option.some.injEq, true_and] at e
    obtain ⟨e1, e2⟩ := e
    subst e1
    refine ⟨q1, s1, he, ?_, ?_⟩
    all_goals
      have hsize := hsim.size
      have hflat : _ = q1.flatten := hsim.flat
      have hql : q1.flatten.length = q1.length * t.cap := BufStream.flatten_length_of_size _ hsize
      have hfl : q1.flatten.length = t.nodes.flatten.length := by
        rw [← hflat]
        simp only [List.length_append, List.length_take, List.length_drop]
        omega
      have hnl : q1.length = t.nodes.length := by
        rw [hql, hlen] at hfl
        exact Nat.eq_of_mul_eq_mul_right h.cap hfl
    · have hne : t.nodes ≠ [] := by
        intro hc
        unfold total at ht
        have := (h.empty hc).1
        rw [hc, this] at ht
        simp at ht
      have hlS : (P ++ d ++ D).length = (P ++ Z ++ D).length := by
        simp only [List.length_append]; omega
      refine ⟨h.cap, hsize, by rw [hlS]; exact h.written, ?_, ?_, h.last, h.pos, ?_⟩
      · intro hc
        rw [show q1 = [] from hc] at hnl
        exact absurd (List.length_eq_zero_iff.1 hnl.symm) hne
      · intro _
        rw [hlS, ← h.place hne]
        unfold top
        dsimp only
        rw [hnl]
      · show q1.flatten.take ((P ++ d ++ D).length - t.base * t.cap) = (P ++ d ++ D).drop (t.base * t.cap)
        rw [hlS, ← hflat]
        have hc := h.content
        have e1 : t.nodes.flatten.take (P.length - t.base * t.cap) = P.drop (t.base * t.cap) := by
          have := congrArg (fun l => l.take (P.length - t.base * t.cap)) hc
          simp only [List.take_take] at this
          rw [Nat.min_eq_left (by simp only [List.length_append]; omega)] at this
          rw [this, List.append_assoc, List.drop_append_of_le_length hb, List.take_append_of_le_length (by rw [List.length_drop]; omega),
            List.take_of_length_le (by rw [List.length_drop]; omega)]
        have e2 : (t.nodes.flatten.drop (P.length - t.base * t.cap + d.length)).take D.length = D := by
          have := congrArg (fun l => l.drop (P.length - t.base * t.cap + d.length)) hc
          simp only [List.drop_drop, List.drop_take] at this
          have hx : (P ++ Z ++ D).length - t.base * t.cap - (P.length - t.base * t.cap + d.length) = D.length := by
            simp only [List.length_append]; omega
          rw [hx] at this
          rw [this]
          have hy : t.base * t.cap + (P.length - t.base * t.cap + d.length) = (P ++ Z).length := by
            rw [List.length_append]; omega
          rw [hy, List.drop_left]
        rw [e1]
        have hdl : (P.drop (t.base * t.cap) ++ d).length = P.length - t.base * t.cap + d.length := by
          rw [List.length_append, List.length_drop]
        have hx : (P ++ Z ++ D).length - t.base * t.cap = (P.drop (t.base * t.cap) ++ d).length + D.length := by
          rw [hdl]; simp only [List.length_append]; omega
        rw [hx, List.take_append, List.take_of_length_le (Nat.le_add_right _ _), Nat.add_sub_cancel_left, e2,
          List.append_assoc, List.append_assoc, List.drop_append_of_le_length hb]
    · exact hnl
  · cases e
  · cases e
  · cases e

/-- Under `calm`, no round of the memory watermark. -/
def Quiet (calm : Bool) (es : List Env) : Prop := calm = true → ∀ e ∈ es, e.wm = []

/-- The packet `q` may follow: it is one a sender writes, the numbers of the frames stay below 2^64 - 1, and
without `calm` it is not an end of stream. -/
def Next (calm : Bool) (connect : List UInt8) (ps : List Packet) (q : Packet) : Prop :=
  Sendable q ∧ field connect 80 8 + frames (ps ++ [q]) < 2 ^ 64 - 1 ∧ (calm = false → ptype q.raw ≠ tEos)

/-- What may happen to a track to which the packets `ps` were written, and the packets after it. There are two
kinds of use:

* `calm`: any number of upstreams, all with the last acked policy, and no memory pressure;
* not `calm`: one upstream at a time, with any policy, and memory pressure at any moment; no end of stream, and a
  new connection becomes writable only when everything acked was handed out (`acked ≤ sofar`).

An upstream without a source is added only while no buffer was released. -/
def Allowed (calm : Bool) (t : Track) (ps : List Packet) : Op → List Packet → Prop
  | .packet calls _, ps' => ∃ q, ps' = ps ++ [q] ∧ Next calm t.connect ps q ∧ written calls = Packet.bytes q ∧
      Quiet calm (calls.map (·.1))
  | .marked e0 calls hdr e, ps' => ∃ q, ps' = ps ++ [q] ∧ Next calm t.connect ps q ∧ hdr ++ written calls = Packet.bytes q ∧
      hdr.length = framePacketLen ∧ t.nodes ≠ [] ∧ Quiet calm (e0 :: e :: calls.map (·.1))
  | .flush _, ps' => ps' = ps
  | .add src policy _, ps' => ps' = ps ∧ (calm = true → policy = .lastAcked) ∧ (calm = false → t.ups = []) ∧
      (src = none → t.base = 0 ∧ t.nodes ≠ [])
  | .writable i _ _, ps' => ps' = ps ∧
      (calm = false → ∀ u, t.ups[i]? = some u → u.last = false → u.acked ≤ sofar t)
  | _, ps' => ps' = ps

/-- The tracks that exist, with the packets that were written. -/
inductive Reach (calm : Bool) (cap : Nat) (connect : List UInt8) : Track → List Packet → Prop where
  | create : 0 < cap → field connect 80 8 < 2 ^ 64 - 1 → Reach calm cap connect (create cap connect) []
  | step {t t' : Track} {ps ps' : List Packet} {op : Op} : Reach calm cap connect t ps → Allowed calm t ps op ps' →
      step t op = .ok t' → Reach calm cap connect t' ps'

/-! ## Every event keeps the invariant -/

/-- Between events everything written is visible. -/
structure Good (calm : Bool) (cap : Nat) (connect : List UInt8) (t : Track) (ps : List Packet) : Prop where
  inv     : Inv calm t ps (stream ps) (stream ps).length
  room    : Room t (stream ps)
  free    : t.blocked = false
  cap     : t.cap = cap
  connect : t.connect = connect

theorem inv_more {calm : Bool} {t : Track} {ps : List Packet} {S : List UInt8} {v : Nat} (h : Inv calm t ps S v)
    {q : Packet} (hq : Next calm t.connect ps q) : Inv calm t (ps ++ [q]) S v := by
  obtain ⟨h1, h2, h3⟩ := hq
  refine ⟨⟨h.shown.mem, h.shown.vis, ?_, ?_, ?_, h2⟩, h.frameV, h.frameT, ?_, h.one, h.none, h.base, ?_, h.seen⟩
  · rw [stream_append, List.take_append_of_le_length h.shown.inps]; exact h.shown.same
  · rw [stream_append, List.length_append]; have := h.shown.inps; omega
  · intro p hp
    rcases List.mem_append.1 hp with hp | hp
    · exact h.shown.good p hp
    · rw [List.mem_singleton.1 hp]; exact h1
  · intro hc p hp
    rcases List.mem_append.1 hp with hp | hp
    · exact h.eos hc p hp
    · rw [List.mem_singleton.1 hp]; exact h3 hc
  · intro u hu
    exact upinv_mono (h.ups u hu) h.shown.inps rfl rfl (h.ups u hu).alive rfl (Nat.le_refl _) (Nat.le_refl _)

theorem inv_lastFrame {calm : Bool} {t : Track} {ps : List Packet} {S : List UInt8} {v : Nat} (h : Inv calm t ps S v)
    (hr : Room t S) (hv : v = S.length) : Inv calm { t with lastFrame := t.written } ps S v := by
  have hm := h.shown.mem
  refine ⟨⟨⟨hm.cap, hm.size, hm.written, hm.empty, hm.place, hm.last, hm.pos, hm.content⟩, h.shown.vis,
    h.shown.same, h.shown.inps, h.shown.good, h.shown.few⟩, ?_, ?_, h.eos, h.one, h.none, h.base, ?_, h.seen⟩
  · show t.written ≤ v; rw [hm.written, hv]; exact Nat.le_refl _
  · intro hn; show t.written < _; rw [hm.written]; exact hr hn
  · intro u hu
    exact upinv_keep (h.ups u hu) h.shown.inps rfl rfl (h.ups u hu).alive rfl (Nat.le_refl _) (Nat.le_refl _)

theorem good_ups {calm : Bool} {cap : Nat} {connect : List UInt8} {t : Track} {ps : List Packet}
    (h : Good calm cap connect t ps) (us : List Up) (hl : calm = false → us.length ≤ 1) (hn : t.nodes = [] → us = [])
    (hu : ∀ u ∈ us, UpInv calm t ps (stream ps).length u) : Good calm cap connect { t with ups := us } ps :=
  ⟨inv_ups h.inv us hl hn hu, h.room, h.free, h.cap, h.connect⟩

theorem good_put {calm : Bool} {cap : Nat} {connect : List UInt8} {t : Track} {ps : List Packet}
    (h : Good calm cap connect t ps) (i : Nat) {u0 : Up} (h0 : t.ups[i]? = some u0) (o : Option Up)
    (ho : ∀ u, o = some u → UpInv calm t ps (stream ps).length u) : Good calm cap connect (putUp t i o) ps := by
  have hne : t.nodes ≠ [] := h.inv.nodes (List.mem_of_getElem? h0)
  cases o with
  | none =>
    refine good_ups h _ ?_ (fun hc => absurd hc hne) (fun u hu => h.inv.ups u (List.mem_of_mem_eraseIdx hu))
    intro hc
    have := h.inv.one hc
    have := List.length_eraseIdx_le t.ups i
    omega
  | some u =>
    refine good_ups h _ ?_ (fun hc => absurd hc hne) ?_
    · intro hc; rw [List.length_set]; exact h.inv.one hc
    · intro w hw
      rcases List.mem_or_eq_of_mem_set hw with hw | hw
      · exact h.inv.ups w hw
      · rw [hw]; exact ho u rfl

theorem good_onUp {calm : Bool} {cap : Nat} {connect : List UInt8} {t : Track} {ps : List Packet}
    (h : Good calm cap connect t ps) (i : Nat) (f : Up → Res (Option Up))
    (hf : ∀ u, t.ups[i]? = some u → u.conn = true → UpInv calm t ps (stream ps).length u → t.nodes ≠ [] →
      f u = .ok none ∨ ∃ u', f u = .ok (some u') ∧ UpInv calm t ps (stream ps).length u') :
    ∃ t', onUp t i f = .ok t' ∧ Good calm cap connect t' ps := by
  unfold onUp
  cases h0 : t.ups[i]? with
  | none => exact ⟨t, rfl, h⟩
  | some u =>
    dsimp only
    have hm : u ∈ t.ups := List.mem_of_getElem? h0
    by_cases hc : u.conn = true
    · rw [if_pos hc]
      rcases hf u h0 hc (h.inv.ups u hm) (h.inv.nodes hm) with e | ⟨u', e, hu'⟩
      · rw [e]
        exact ⟨_, rfl, good_put h i h0 none (fun _ hx => nomatch hx)⟩
      · rw [e]
        refine ⟨_, rfl, good_put h i h0 (some u') (fun w hw => ?_)⟩
        injection hw with hw
        rw [← hw]; exact hu'
    · rw [if_neg hc]
      exact ⟨t, rfl, h⟩

theorem upinv_create {calm : Bool} {t : Track} {ps : List Packet} {S : List UInt8} {v : Nat} (h : Inv calm t ps S v)
    (hn : t.nodes ≠ []) (hb : t.base = 0) (policy : Policy) (hp : calm = true → policy = .lastAcked) (cd : List UInt8) :
    ∃ u, createUp t policy cd = .ok u ∧ UpInv calm t ps v u := by
  unfold createUp
  cases hx : t.nodes with
  | nil => exact absurd hx hn
  | cons a r =>
    refine ⟨_, rfl, ?_⟩
    have hcap := h.shown.mem.cap
    have htot := total_eq hn
    refine ⟨⟨0, ⟨Nat.zero_le _, ?_, ⟨rfl, hcap, ?_, ?_⟩, ?_, ?_⟩, fun _ => Or.inl rfl⟩, Nat.zero_le _, ?_, ?_, ?_, ?_, fun _ => Or.inl rfl⟩
    · simp [off, stream]
    · show t.base * t.cap + 0 = _
      rw [hb]; simp [off, stream]
    · exact Nat.le_refl _
    · show field t.connect 80 8 = _
      simp [frames]
    · simp [infoOf]
    · show 0 < total t; omega
    · intro hc; exact ⟨hp hc, Nat.zero_le _⟩
    · intro _
      exact ⟨rfl, (fun hc => nomatch hc), Int.le_refl _⟩
    · intro hc; exact nomatch hc

theorem upinv_copy {calm : Bool} {t : Track} {ps : List Packet} {v : Nat} {u : Up} (h : UpInv calm t ps v u)
    (policy : Policy) (hp : calm = true → policy = .lastAcked) (cd : List UInt8) :
    UpInv calm t ps v (copyUp u policy cd) := by
  obtain ⟨k, ha, hcan⟩ := h.acked
  refine ⟨⟨k, ha.of_moves rfl rfl rfl rfl, hcan⟩, h.low, h.lt, fun hc => ⟨hp hc, (h.calm hc).2⟩, ?_, (fun hc => nomatch hc), fun _ => Or.inl rfl⟩
  intro _
  exact ⟨rfl, (fun hc => nomatch hc), Int.natCast_nonneg _⟩

theorem upinv_connect {calm : Bool} {t : Track} {ps : List Packet} {v : Nat} {u : Up} (h : UpInv calm t ps v u)
    (hc : u.conn ≠ true) (cd : List UInt8) : UpInv calm t ps v (connectUp u cd) := by
  obtain ⟨k, ha, hcan⟩ := h.acked
  refine ⟨⟨k, ha.of_moves rfl rfl rfl rfl, hcan⟩, h.low, h.lt, h.calm, ?_, ?_, fun _ => Or.inl rfl⟩
  · intro hl
    obtain ⟨h1, _, h3⟩ := h.idle hl
    exact ⟨h1, fun _ => rfl, h3⟩
  · intro hl
    exact absurd (h.live hl).1 hc

theorem good_packet {calm : Bool} {cap : Nat} {connect : List UInt8} {t : Track} {ps : List Packet}
    (h : Good calm cap connect t ps) (calls : List (Env × List (List UInt8))) (frame : Bool) (q : Packet)
    (hq : Next calm t.connect ps q) (hw : written calls = Packet.bytes q) (hqt : Quiet calm (calls.map (·.1))) :
    writePacket t calls frame = .err ∨ ∃ t', writePacket t calls frame = .ok t' ∧ Good calm cap connect t' (ps ++ [q]) := by
  have h1 := inv_more h.inv hq
  have hcat : stream ps ++ written calls = stream (ps ++ [q]) := by rw [hw, stream_append, stream_one]
  unfold writePacket
  rcases inv_writeAll calls t _ _ h1 h.room (fun hc c hm => hqt hc c.1 (List.mem_map_of_mem hm))
    (fun _ => by rw [hcat]; exact List.prefix_refl _) with e | ⟨t', e, h2, hr2, hs2⟩
  · left; rw [e]
  · right
    rw [e]
    rw [hcat] at h2 hr2
    have hvis : visible t (stream (ps ++ [q])) (stream ps).length = (stream (ps ++ [q])).length := by
      unfold visible; rw [h.free]; rfl
    rw [hvis] at h2
    refine ⟨_, rfl, ?_⟩
    have hb : t'.blocked = false := by rw [hs2.1]; exact h.free
    have hcap : t'.cap = cap := by rw [hs2.2.1]; exact h.cap
    have hcon : t'.connect = connect := by rw [hs2.2.2.2]; exact h.connect
    cases frame
    · exact ⟨h2, hr2, hb, hcap, hcon⟩
    · exact ⟨inv_lastFrame h2 hr2 rfl, hr2, hb, hcap, hcon⟩

theorem inv_block {calm : Bool} {t : Track} {ps : List Packet} {S : List UInt8} {v : Nat} (h : Inv calm t ps S v) :
    Inv calm { t with blocked := true } ps S v := by
  have hm := h.shown.mem
  refine ⟨⟨⟨hm.cap, hm.size, hm.written, hm.empty, hm.place, hm.last, hm.pos, hm.content⟩, h.shown.vis,
    h.shown.same, h.shown.inps, h.shown.good, h.shown.few⟩, h.frameV, h.frameT, h.eos, h.one, h.none, h.base, ?_,
    (fun hc => nomatch hc)⟩
  intro u hu
  exact upinv_keep (h.ups u hu) h.shown.inps rfl rfl (h.ups u hu).alive rfl (Nat.le_refl _) (Nat.le_refl _)

/-- The header is in place: everything is visible. -/
theorem inv_unblock {calm : Bool} {t : Track} {ps : List Packet} {S S' : List UInt8} {v : Nat} (h : Inv calm t ps S v)
    (nodes : List (List UInt8)) (hn : nodes.length = t.nodes.length) (hm : Mem { t with nodes } S') (hl : S'.length = S.length)
    (hS : S' = stream ps) : Inv calm { t with nodes, blocked := false } ps S' S'.length := by
  have htop : top { t with nodes, blocked := false } = top t := by unfold top; dsimp only; rw [hn]
  have htot : total { t with nodes, blocked := false } = total t := by unfold total; dsimp only; rw [hn]
  have hnil : nodes = [] ↔ t.nodes = [] := by rw [← List.length_eq_zero_iff, hn, List.length_eq_zero_iff]
  have hvl := h.shown.vis
  have hfv := h.frameV
  refine ⟨⟨⟨hm.cap, hm.size, hm.written, hm.empty, hm.place, hm.last, hm.pos, hm.content⟩, Nat.le_refl _, by rw [hS],
    by rw [hS]; exact Nat.le_refl _, h.shown.good, h.shown.few⟩, ?_, ?_, h.eos, h.one, ?_, ?_, ?_, fun _ => rfl⟩
  · show t.lastFrame ≤ _; omega
  · intro hc; rw [htot]; exact h.frameT (fun hx => hc (hnil.2 hx))
  · intro hc; exact h.none (hnil.1 hc)
  · show t.base * t.cap ≤ _; have := h.base; omega
  · intro u hu
    refine upinv_keep (h.ups u hu) h.shown.inps rfl rfl (h.ups u hu).alive ?_ (by omega) (by omega)
    unfold sofar; rw [htop]

theorem good_marked {calm : Bool} {cap : Nat} {connect : List UInt8} {t : Track} {ps : List Packet}
    (h : Good calm cap connect t ps) (e0 : Env) (calls : List (Env × List (List UInt8))) (hdr : List UInt8) (e : Env)
    (q : Packet) (hq : Next calm t.connect ps q) (hw : hdr ++ written calls = Packet.bytes q)
    (hlen : hdr.length = framePacketLen) (hn : t.nodes ≠ []) (hqt : Quiet calm (e0 :: e :: calls.map (·.1))) :
    writeMarked t e0 calls hdr e = .err ∨
    ∃ t', writeMarked t e0 calls hdr e = .ok t' ∧ Good calm cap connect t' (ps ++ [q]) := by
  have h1 := inv_block (inv_more h.inv hq)
  have hie : t.nodes.isEmpty = false := by
    cases hx : t.nodes with
    | nil => exact absurd hx hn
    | cons _ _ => rfl
  unfold writeMarked
  rw [hie]
  simp only [Bool.false_eq_true, if_false]
  generalize hzs : List.replicate framePacketLen (0 : UInt8) = zs
  have hzl : zs.length = hdr.length := by rw [← hzs, List.length_replicate, hlen]
  have hwr : written ((e0, [zs]) :: calls) = zs ++ written calls := by
    unfold written; rw [List.flatMap_cons]; simp
  rcases inv_writeAll ((e0, [zs]) :: calls) { t with blocked := true } _ _ h1 h.room
    (fun hc c hm => by
      rcases List.mem_cons.1 hm with hm | hm
      · rw [hm]; exact hqt hc e0 List.mem_cons_self
      · exact hqt hc c.1 (List.mem_cons_of_mem _ (List.mem_cons_of_mem _ (List.mem_map_of_mem hm))))
    (fun hb => nomatch hb) with e1 | ⟨t1, e1, h2, hr2, hs2⟩
  · left; rw [e1]
  · rw [e1]
    dsimp only
    rw [hwr, ← List.append_assoc] at h2 hr2
    have hvis : visible { t with blocked := true } (stream ps ++ zs ++ written calls) (stream ps).length = (stream ps).length := rfl
    rw [hvis] at h2
    have hcap1 : t1.cap = t.cap := hs2.2.1
    have hlast := room_last h.inv.shown.mem h.room hn
    have hplace := h.inv.shown.mem.place hn
    have hbase := h2.base
    have halive : t1.base ≤ t.base + t.nodes.length - 1 := by
      rw [hcap1] at hbase
      refine node_mono hlast (show t1.base * t.cap + 0 ≤ (t.base + t.nodes.length - 1) * t.cap + t.last from ?_)
      unfold top at hplace
      omega
    rw [if_neg (by omega)]
    have hAt : At t1 { node := t.base + t.nodes.length - 1, posNode := t.base + t.nodes.length - 1, posOff := t.last }
        (stream ps).length := by
      refine ⟨rfl, by rw [hcap1]; exact hlast, ?_, halive⟩
      show (t.base + t.nodes.length - 1) * t1.cap + t.last = _
      rw [hcap1]; exact hplace
    have hcatl : (stream ps ++ zs ++ written calls).length = (stream ps).length + zs.length + (written calls).length := by
      simp only [List.length_append]
    have hne1 : t1.nodes ≠ [] := by
      intro hc
      have := (h2.shown.mem.empty hc).2.1
      have hz : zs = [] := by
        have := List.append_eq_nil_iff.1 (List.append_eq_nil_iff.1 this).1
        exact this.2
      rw [hz] at hzl
      rw [hlen] at hzl
      exact absurd hzl (by decide)
    have hlt := hr2 hne1
    obtain ⟨nodes, s', e2, hm2, hnl⟩ := patch_mem h2.shown.mem hbase hAt hdr hzl.symm (by omega)
    rw [e2]
    dsimp only
    have hfin : stream ps ++ hdr ++ written calls = stream (ps ++ [q]) := by
      rw [List.append_assoc, hw, stream_append, stream_one]
    have hlen' : (stream ps ++ hdr ++ written calls).length = (stream ps ++ zs ++ written calls).length := by
      simp only [List.length_append]; omega
    have h3 := inv_unblock h2 nodes hnl hm2 hlen' hfin
    have hr3 : Room { t1 with nodes, blocked := false } (stream ps ++ hdr ++ written calls) := by
      intro _
      rw [hlen']
      have : total { t1 with nodes, blocked := false } = total t1 := by unfold total; dsimp only; rw [hnl]
      rw [this]; exact hlt
    rcases inv_sendAll h3 hr3 e.allowed e.ios with e4 | ⟨t4, e4, h4, hr4, hs4, _, _, _⟩
    · left; rw [e4]
    · right
      rw [e4]
      refine ⟨_, rfl, ?_⟩
      rw [hfin] at h4 hr4
      refine ⟨inv_lastFrame h4 hr4 rfl, hr4, hs4.1, ?_, ?_⟩
      · show t4.cap = cap; rw [hs4.2.1]; show t1.cap = cap; rw [hcap1]; exact h.cap
      · show t4.connect = connect; rw [hs4.2.2.2]; show t1.connect = connect; rw [hs2.2.2.2]; exact h.connect

/-- Every event that is allowed keeps the invariant, or the track has failed; nothing is undefined. -/
theorem good_step {calm : Bool} {cap : Nat} {connect : List UInt8} {t : Track} {ps ps' : List Packet} {op : Op}
    (h : Good calm cap connect t ps) (ha : Allowed calm t ps op ps') :
    step t op = .err ∨ ∃ t', step t op = .ok t' ∧ Good calm cap connect t' ps' := by
  cases op with
  | packet calls frame =>
    obtain ⟨q, rfl, hq, hw, hqt⟩ := ha
    exact good_packet h calls frame q hq hw hqt
  | marked e0 calls hdr e =>
    obtain ⟨q, rfl, hq, hw, hl, hn, hqt⟩ := ha
    exact good_marked h e0 calls hdr e q hq hw hl hn hqt
  | flush e =>
    have ha' : ps' = ps := ha
    subst ha'
    obtain ⟨t1, e1, h1, _, hfr⟩ := inv_appendAll h.inv
    obtain ⟨f1, f2, f3, f4, f5, f6, f7, f8, f9⟩ := hfr
    have hr1 : Room t1 (stream ps') := by
      intro hn; rw [f8]; exact h.room (fun hc => hn (f9.2 hc))
    show flush t e = .err ∨ ∃ t', flush t e = .ok t' ∧ _
    unfold flush
    rw [e1]
    dsimp only
    rcases inv_sendAll h1 hr1 e.allowed e.ios with e2 | ⟨t2, e2, h2, hr2, hs2, _, _, _⟩
    · left; exact e2
    · right
      exact ⟨t2, e2, h2, hr2, by rw [hs2.1, f5]; exact h.free, by rw [hs2.2.1, f1]; exact h.cap,
        by rw [hs2.2.2.2, f6]; exact h.connect⟩
  | add src policy cd =>
    obtain ⟨ha', hp, hone, hsrc⟩ := ha
    subst ha'
    cases src with
    | none =>
      obtain ⟨hb, hn⟩ := hsrc rfl
      obtain ⟨u, e, hu⟩ := upinv_create h.inv hn hb policy hp cd
      right
      unfold step
      dsimp only
      rw [e]
      refine ⟨_, rfl, good_ups h _ ?_ (fun hc => absurd hc hn) ?_⟩
      · intro hc; rw [hone hc]; simp
      · intro w hw
        rcases List.mem_append.1 hw with hw | hw
        · exact h.inv.ups w hw
        · rw [List.mem_singleton.1 hw]; exact hu
    | some i =>
      right
      unfold step
      dsimp only
      cases h0 : t.ups[i]? with
      | none => exact ⟨t, rfl, h⟩
      | some u =>
        have hm : u ∈ t.ups := List.mem_of_getElem? h0
        refine ⟨_, rfl, good_ups h _ ?_ (fun hc => absurd hc (h.inv.nodes hm)) ?_⟩
        · intro hc; rw [hone hc]; simp
        · intro w hw
          rcases List.mem_append.1 hw with hw | hw
          · exact h.inv.ups w hw
          · rw [List.mem_singleton.1 hw]; exact upinv_copy (h.inv.ups u hm) policy hp cd
  | del i =>
    have ha' : ps' = ps := ha
    subst ha'
    right
    refine ⟨_, rfl, good_ups h _ ?_ ?_ (fun u hu => h.inv.ups u (List.mem_of_mem_eraseIdx hu))⟩
    · intro hc
      have := h.inv.one hc
      have := List.length_eraseIdx_le t.ups i
      omega
    · intro hc; rw [h.inv.none hc]; rfl
  | connect i cd =>
    have ha' : ps' = ps := ha
    subst ha'
    right
    unfold step
    dsimp only
    cases h0 : t.ups[i]? with
    | none => exact ⟨t, rfl, h⟩
    | some u =>
      dsimp only
      have hm : u ∈ t.ups := List.mem_of_getElem? h0
      by_cases hc : u.conn = true
      · rw [if_pos hc]; exact ⟨t, rfl, h⟩
      · rw [if_neg hc]
        refine ⟨_, rfl, good_put h i h0 (some (connectUp u cd)) (fun w hw => ?_)⟩
        injection hw with hw
        rw [← hw]; exact upinv_connect (h.inv.ups u hm) hc cd
  | writable i io allowed =>
    obtain ⟨ha', hA⟩ := ha
    subst ha'
    right
    refine good_onUp h i _ (fun u h0 hc hu hn => ?_)
    refine upinv_writeHandler (h.inv.ctx hn) hu hc rfl hn (h.room hn) ?_ io allowed
    intro hl
    cases calm
    · exact hA rfl u h0 hl
    · exact (hu.calm rfl).2
  | readable i bytes closed allowed =>
    have ha' : ps' = ps := ha
    subst ha'
    right
    exact good_onUp h i _ (fun u h0 hc hu hn => upinv_readHandler (h.inv.ctx hn) (h.room hn) hu hc bytes closed allowed)
  | timeout i allowed =>
    have ha' : ps' = ps := ha
    subst ha'
    right
    exact good_onUp h i _ (fun u h0 hc hu hn => upinv_error (h.inv.ctx hn) hu allowed)

theorem good_create {calm : Bool} {cap : Nat} {connect : List UInt8} (hc : 0 < cap) (hf : field connect 80 8 < 2 ^ 64 - 1) :
    Good calm cap connect (create cap connect) [] := by
  refine ⟨⟨⟨⟨hc, (fun _ h => nomatch h), rfl, fun _ => ⟨rfl, rfl, rfl⟩, fun h => absurd rfl h, Nat.zero_le _, Nat.le_refl _, ?_⟩, ?_, rfl, ?_, (fun _ h => nomatch h), ?_⟩,
    ?_, fun h => absurd rfl h, (fun _ _ h => nomatch h), fun _ => Nat.zero_le _, fun _ => rfl, ?_, (fun _ h => nomatch h), fun _ => rfl⟩,
    fun h => absurd rfl h, rfl, rfl, rfl⟩
  · simp [create, stream]
  · simp [stream]
  · simp [stream]
  · simpa [create, frames] using hf
  · simp [create]
  · simp [create]

theorem reach_good {calm : Bool} {cap : Nat} {connect : List UInt8} {t : Track} {ps : List Packet}
    (h : Reach calm cap connect t ps) : Good calm cap connect t ps := by
  induction h with
  | create hc hf => exact good_create hc hf
  | step _ ha e ih =>
    rcases good_step ih ha with e' | ⟨t', e', h'⟩
    · rw [e'] at e; exact nomatch e
    · rw [e'] at e
      injection e with e
      rw [← e]; exact h'

/-! ## Specification: what is held and what is sent -/

/-- The byte number `o` of everything that was written, when it is still in a buffer of the track. -/
def held (t : Track) (o : Nat) : Option UInt8 := if o < t.base * t.cap then none else t.nodes.flatten[o - t.base * t.cap]?

/-- The bytes that are queued for the socket; `none` when a queued buffer was released. -/
def pending (t : Track) : List Chunk → Option (List UInt8)
  | [] => some []
  | c :: cs =>
    match chunkBytes t c, pending t cs with
    | .ok b, some r => some (b ++ r)
    | _, _ => none

/-- The upstream has acknowledged exactly the first `k` packets: the next frame has the number behind theirs. -/
def HasAcked (connect : List UInt8) (ps : List Packet) (u : Up) (k : Nat) : Prop :=
  k ≤ ps.length ∧ u.acked = off ps k ∧ u.frame = field connect 80 8 + frames (ps.take k) ∧ u.info = infoOf (ps.take k)

/-! ## C20 -/

/-- No event that is allowed is undefined: no released buffer and no byte that was not written is looked at. -/
theorem step_defined_partial {calm : Bool} {cap : Nat} {connect : List UInt8} {t : Track} {ps ps' : List Packet} {op : Op}
    (h : Reach calm cap connect t ps) (ha : Allowed calm t ps op ps') : step t op ≠ .ub := by
  rcases good_step (reach_good h) ha with e | ⟨t', e, _⟩ <;> rw [e] <;> exact fun hc => nomatch hc

theorem held_of {t : Track} {S : List UInt8} (hm : Mem t S) {o : Nat} (hb : t.base * t.cap ≤ o) (ho : o < S.length) :
    held t o = S[o]? := by
  unfold held
  rw [if_neg (by omega)]
  have h1 : (t.nodes.flatten.take (S.length - t.base * t.cap))[o - t.base * t.cap]? = (S.drop (t.base * t.cap))[o - t.base * t.cap]? := by
    rw [hm.content]
  rw [List.getElem?_take_of_lt (by omega), List.getElem?_drop, show t.base * t.cap + (o - t.base * t.cap) = o by omega] at h1
  exact h1

/-- **C20**, for the uses described at `Allowed`. Every byte of a packet that some upstream has not acknowledged
is still held in the buffers of the track, unchanged. Missing: several upstreams with different policies or under
memory pressure (false, see `tie_releases`). -/
theorem unacked_held_partial {calm : Bool} {cap : Nat} {connect : List UInt8} {t : Track} {ps : List Packet}
    (h : Reach calm cap connect t ps) {u : Up} (hu : u ∈ t.ups) :
    ∃ k, HasAcked connect ps u k ∧ ∀ o, off ps k ≤ o → o < (stream ps).length → held t o = (stream ps)[o]? := by
  have hg := reach_good h
  obtain ⟨k, ha, _⟩ := (hg.inv.ups u hu).acked
  refine ⟨k, ⟨ha.le, ha.acked, by rw [← hg.connect]; exact ha.frame, ha.info⟩, fun o h1 h2 => ?_⟩
  have := at_base ha.reader
  exact held_of hg.inv.shown.mem (by omega) h2

/-! ## C21 -/

theorem pending_refs {t : Track} {S : List UInt8} (h : Mem t S) : ∀ (cs : List Chunk) (a b : Nat), Covers t.cap cs a b →
    t.base * t.cap ≤ a → b ≤ S.length → pending t cs = some ((S.drop a).take (b - a))
  | [], a, b, hc, _, _ => by
    rw [Covers] at hc
    subst hc
    simp [pending]
  | .own _ :: _, _, _, hc, _, _ => hc.elim
  | .ref k lo hi :: cs, a, b, hc, hb, hs => by
    obtain ⟨h1, h2, h3, h4⟩ := hc
    have hle4 := covers_le h4
    unfold pending
    rw [chunk_ref h h2 h3 (by omega) (by omega), pending_refs h cs _ b h4 (by omega) hs]
    dsimp only
    rw [take_drop_split S a (k * t.cap + hi) b (by omega) hle4, h1, show k * t.cap + hi - a = hi - lo by omega]

theorem pending_own {t : Track} (rs : List Chunk) (r : List UInt8) (h : pending t rs = some r) : ∀ (os : List (List UInt8)),
    pending t (os.map .own ++ rs) = some (os.flatten ++ r)
  | [] => by simpa using h
  | o :: os => by
    simp only [List.map_cons, List.cons_append, pending, chunkBytes, pending_own rs r h os, List.flatten_cons, List.append_assoc]

theorem sofar_le {t : Track} {S : List UInt8} (h : Mem t S) (hn : t.nodes ≠ []) : sofar t ≤ S.length := by
  have h1 := h.place hn
  have h2 := h.pos
  unfold sofar; omega

/-- What was sent and what is queued together. -/
theorem wire_pending {t : Track} {ps : List Packet} {u : Up} {k0 : Nat} {H : List UInt8} {os : List (List UInt8)}
    {rs : List Chunk} (hm : Mem t (stream ps)) (hn : t.nodes ≠ []) (hb : t.base * t.cap ≤ u.acked)
    (hs : Sent t ps (stream ps).length u k0 H os rs) :
    ∃ r, pending t u.busy = some r ∧ u.wire ++ r = H ++ ((stream ps).take (sofar t)).drop (off ps k0) := by
  have hsof := sofar_le hm hn
  have h1 := hs.ahead
  have hle := covers_le hs.refs
  have hrefs := pending_refs hm rs _ _ hs.refs (by omega) hsof
  refine ⟨_, by rw [hs.busy]; exact pending_own rs _ hrefs os, ?_⟩
  have hw := hs.wire
  have hvis := hs.vis
  rw [hs.own]
  generalize hml : u.wire.length = m at *
  generalize ha : off ps k0 + (m - H.length) = a at *
  rw [hw, List.take_append, List.append_assoc]
  rw [List.drop_take]
  by_cases hc : m ≤ H.length
  · have ha0 : off ps k0 = a := by omega
    rw [show m - H.length = 0 by omega, List.take_zero, List.nil_append, ← List.append_assoc, List.take_append_drop, ha0]
  · rw [List.take_of_length_le (l := H) (by omega), List.drop_of_length_le (l := H) (by omega), List.nil_append]
    congr 1
    rw [take_drop_split (stream ps) (off ps k0) a (sofar t) (by omega) hle, show a - off ps k0 = m - H.length by omega]

/-- **C21**, for the uses described at `Allowed`, during a connection. The socket has taken, and will take, the
connect packet that announces the first frame behind `k0` packets, the media info in force there, and then exactly
the packets from there on, as far as they were handed out; `k0` packets were acknowledged. Missing: memory
pressure or the last written policy with a new connection before the next flush (false, see `skewed_wire`). -/
theorem wire_partial {calm : Bool} {cap : Nat} {connect : List UInt8} {t : Track} {ps : List Packet}
    (h : Reach calm cap connect t ps) {u : Up} (hu : u ∈ t.ups) (hl : u.last = true) :
    ∃ k k0 up o r, HasAcked connect ps u k ∧ k0 ≤ k ∧ pending t u.busy = some r ∧
      u.wire ++ r = head connect u.connectData ps k0 up o ++ ((stream ps).take (sofar t)).drop (off ps k0) ∧
      u.wire <+: head connect u.connectData ps k0 up o ++ stream (ps.drop k0) := by
  have hg := reach_good h
  obtain ⟨k, ha, _⟩ := (hg.inv.ups u hu).acked
  obtain ⟨_, k0, up, o, os, rs, hs⟩ := (hg.inv.ups u hu).live hl
  have hab := at_base ha.reader
  have hac := ha.acked
  obtain ⟨r, hp, hw⟩ := wire_pending hg.inv.shown.mem (hg.inv.nodes hu) (by omega) hs
  rw [hg.connect] at hw
  have hwire := hs.wire
  rw [hg.connect, stream_drop] at hwire
  refine ⟨k, k0, up, o, r, ⟨ha.le, ha.acked, by rw [← hg.connect]; exact ha.frame, ha.info⟩, ?_, hp, hw, ?_⟩
  · rcases Nat.lt_or_ge k k0 with hlt | hge
    · have := off_strict hg.inv.shown.good hlt hs.start
      have := hs.le
      omega
    · exact hge
  · rw [hwire]; exact List.take_prefix _ _

/-- **C21**, for the uses described at `Allowed`, at the start of a connection. What is queued is the connect packet
that announces the first frame that is not acknowledged, the media info in force there, and exactly the packets
that are not acknowledged, as far as they were handed out. -/
theorem resume_partial {calm : Bool} {cap : Nat} {connect : List UInt8} {t : Track} {ps : List Packet}
    (h : Reach calm cap connect t ps) {u : Up} (hu : u ∈ t.ups) (hc : u.conn = true) (hl : u.last = false)
    (hA : calm = false → u.acked ≤ sofar t) :
    ∃ k u', HasAcked connect ps u k ∧ sendBuffered t u = .ok u' ∧ u'.last = true ∧ u'.wire = [] ∧
      pending t u'.busy = some (head connect u.connectData ps k u.upFrame u.offset ++
        ((stream ps).take (sofar t)).drop (off ps k)) := by
  have hg := reach_good h
  have hui := hg.inv.ups u hu
  have hn := hg.inv.nodes hu
  have hA' : u.acked ≤ sofar t := by
    cases calm
    · exact hA rfl
    · exact (hui.calm rfl).2
  obtain ⟨k, ha, _⟩ := hui.acked
  obtain ⟨u', e, hu', he⟩ := upinv_sendBuffered (hg.inv.ctx hn) hui hc hl hA'
  have hw : u'.wire = [] := by rw [he]; exact (hui.idle hl).2.1 hc
  have hl' : u'.last = true := by rw [he]
  refine ⟨k, u', ⟨ha.le, ha.acked, by rw [← hg.connect]; exact ha.frame, ha.info⟩, e, hl', hw, ?_⟩
  have hbusy : u'.busy = [Chunk.own (connectPacket t.connect u.connectData.length u.frame u.upFrame u.offset)] ++
      (if u.connectData.isEmpty then [] else [.own u.connectData]) ++ (if u.info.isEmpty then [] else [.own u.info]) ++
      refs t.cap t.pos (t.base + t.nodes.length - u.reader.node) u.reader.node u.reader.posOff := by
    unfold sendBuffered at e
    split at e
    · exact nomatch e
    · injection e with e
      rw [← e]
  have hac := ha.acked
  have hnode : u.reader.node < t.base + t.nodes.length := by
    rw [ha.reader.same]
    have h3 := ha.reader.pos
    have h4 := hui.lt
    unfold total at h4
    exact Nat.lt_of_mul_lt_mul_right (show u.reader.posNode * t.cap < _ by omega)
  have hbase : t.base ≤ u.reader.node := by rw [ha.reader.same]; exact ha.reader.alive
  have hm := hg.inv.shown.mem
  have hcov := refs_covers t.cap t.pos (Nat.le_trans hm.pos hm.last) (t.base + t.nodes.length - u.reader.node) u.reader.node
    u.reader.posOff (by omega) ha.reader.inside
  have e1 : u.reader.node + (t.base + t.nodes.length - u.reader.node) - 1 = t.base + t.nodes.length - 1 := by omega
  have e2 : (t.base + t.nodes.length - 1) * t.cap + t.pos = sofar t := rfl
  have e3 : u.reader.node * t.cap + u.reader.posOff = off ps k := by rw [ha.reader.same]; exact ha.reader.pos
  rw [e1, e2, e3] at hcov
  have hp := pending_refs hm _ _ _ (hcov (by omega)) (at_base ha.reader) (sofar_le hm hn)
  rw [hbusy, own_map, pending_own _ _ hp, own_flatten]
  unfold head
  rw [hg.connect, ← hg.connect, ha.frame, ha.info, List.drop_take]

theorem le_bytesOf : ∀ (n v : Nat), KmpIn.le (bytesOf n v) = v % 256 ^ n
  | 0, v => by simp [bytesOf, KmpIn.le, Nat.mod_one]
  | n + 1, v => by
    have ih := le_bytesOf n (v / 256)
    unfold bytesOf
    unfold KmpIn.le at ih ⊢
    rw [List.foldr_cons, ih, Nat.pow_succ, Nat.mul_comm (256 ^ n) 256, Nat.mod_mul]
    congr 1
    rw [UInt8.toNat_ofNat']
    omega

theorem take_exact {α : Type} {a : List α} (b : List α) {n : Nat} (h : a.length = n) : (a ++ b).take n = a := by
  rw [← h, List.take_left]

theorem drop_exact {α : Type} {a : List α} (b : List α) {n : Nat} (h : a.length = n) : (a ++ b).drop n = b := by
  rw [← h, List.drop_left]

/-- The head of a connection has the connect packet in front, with the type and sizes of the track's, and the id in
the field `initial_frame_id`. -/
theorem head_announces {connect cd : List UInt8} {ps : List Packet} {k up o : Nat} (hl : 100 ≤ connect.length)
    (hf : field connect 80 8 + frames (ps.take k) < 2 ^ 64) :
    field (head connect cd ps k up o) 80 8 = field connect 80 8 + frames (ps.take k) := by
  generalize hid : field connect 80 8 + frames (ps.take k) = id at hf
  unfold head
  rw [hid]
  unfold field connectPacket
  have hpre : (connect.take 8 ++ bytesOf 4 cd.length ++ (connect.drop 12).take 68).length = 80 := by
    rw [List.length_append, List.length_append, List.length_take, bytesOf_length, List.length_take, List.length_drop]
    omega
  rw [List.append_assoc _ cd, List.append_assoc _ (connect.drop 100), List.append_assoc _ (bytesOf 4 o), List.append_assoc _ (bytesOf 8 up),
    List.append_assoc _ (bytesOf 8 id), drop_exact _ hpre, take_exact _ (bytesOf_length 8 id), le_bytesOf]
  exact Nat.mod_eq_of_lt hf

/-! ## C22 -/

/-- The packets up to number `j` were put on the wire of this connection, which started with `H` behind the first
`k0` packets. -/
def OnWire (ps : List Packet) (H wire : List UInt8) (k0 j : Nat) : Prop := H ++ stream ((ps.take j).drop k0) <+: wire

/-- An ack of frame `id` is for frames that were sent: there is a number `j` of packets, all of them sent, the last of
which is the frame before `id`; there is no end of stream among those not yet acknowledged. -/
def Acceptable (ps : List Packet) (first : Nat) (H wire : List UInt8) (k0 k id j : Nat) : Prop :=
  k < j ∧ j ≤ ps.length ∧ first + frames (ps.take j) = id ∧ first + frames (ps.take (j - 1)) < id ∧
  OnWire ps H wire k0 j ∧ ∀ i, k ≤ i → (h : i < ps.length) → i < j → ptype ps[i].raw ≠ tEos

theorem onWire_iff {t : Track} {ps : List Packet} {u : Up} {k0 : Nat} {H : List UInt8} {os : List (List UInt8)}
    {rs : List Chunk} {v : Nat} (hs : Sent t ps v u k0 H os rs) {j : Nat} (hj : k0 ≤ j) :
    OnWire ps H u.wire k0 j ↔ (off ps j : Int) ≤ sentOff u := by
  have hlen : off ps k0 + (stream ((ps.take j).drop k0)).length = off ps j := by
    unfold off
    have := congrArg List.length (stream_split (ps.take j) k0)
    rw [List.length_append, List.take_take, Nat.min_eq_left hj] at this
    omega
  have hsplit : stream (ps.drop k0) = stream ((ps.take j).drop k0) ++ stream (ps.drop j) := by
    rw [← stream_append]
    congr 1
    conv => lhs; rw [← List.take_append_drop j ps]
    rw [List.drop_append, List.length_take, List.drop_drop]
    by_cases hjl : j ≤ ps.length
    · rw [Nat.min_eq_left hjl, show k0 - j = 0 by omega, Nat.add_zero]
    · rw [List.drop_of_length_le (l := ps) (i := j + _) (by omega), List.drop_of_length_le (l := ps) (i := j) (by omega)]
  have hb := hs.base
  have hw := hs.wire
  unfold OnWire sentOff
  constructor
  · intro hp
    have := hp.length_le
    rw [List.length_append] at this
    omega
  · intro hle
    rw [hw, stream_drop, hsplit, ← List.append_assoc]
    have hx : (H ++ stream ((ps.take j).drop k0)).length ≤ u.wire.length := by
      rw [List.length_append]; omega
    rw [List.take_append, List.take_of_length_le hx]
    exact List.prefix_append _ _

/-- **C22**, for the uses described at `Allowed`. On a connection that has started, an ack for a frame that is
already acknowledged changes only what the peer reports about itself; an ack for a frame that was sent moves the
position exactly behind the packets before that id; any other is rejected. Missing: the histories that are not
allowed (there it is false, see `skewed_ack`). -/
theorem ack_exact_partial {calm : Bool} {cap : Nat} {connect : List UInt8} {t : Track} {ps : List Packet}
    (h : Reach calm cap connect t ps) {u : Up} (hu : u ∈ t.ups) (hl : u.last = true) (id up o : Nat) :
    ∃ k k0 up0 o0, HasAcked connect ps u k ∧ k0 ≤ k ∧
      u.wire <+: head connect u.connectData ps k0 up0 o0 ++ stream (ps.drop k0) ∧
      (id ≤ u.frame → ackFrames t u id up o = .ok (true, { u with upFrame := up, offset := o })) ∧
      (u.frame < id →
        (∃ j u', ackFrames t u id up o = .ok (true, u') ∧
          Acceptable ps (field connect 80 8) (head connect u.connectData ps k0 up0 o0) u.wire k0 k id j ∧
          HasAcked connect ps u' j ∧ u'.upFrame = up ∧ u'.offset = o ∧ u'.wire = u.wire ∧ u'.busy = u.busy) ∨
        ((∃ u', ackFrames t u id up o = .ok (false, u') ∧ u'.noRepublish = true) ∧
          ∀ j, ¬Acceptable ps (field connect 80 8) (head connect u.connectData ps k0 up0 o0) u.wire k0 k id j)) := by
  have hg := reach_good h
  have hui := hg.inv.ups u hu
  have hn := hg.inv.nodes hu
  obtain ⟨k, ha, _⟩ := hui.acked
  obtain ⟨hc, k0, up0, o0, os, rs, hs⟩ := hui.live hl
  have hconn := hg.connect
  have hx := hg.inv.ctx hn
  have hvs := sentOff_vis hui hc
  have hvis := hx.shown.vis
  have hroom := hg.room hn
  have hk0 : k0 ≤ k := by
    rcases Nat.lt_or_ge k k0 with hlt | hge
    · have := off_strict hg.inv.shown.good hlt hs.start
      have := hs.le
      have := ha.acked
      omega
    · exact hge
  obtain ⟨hf, hf0⟩ := fuel_enough hx.shown k
  obtain ⟨h1, h2⟩ := ackFramesLoop_spec hx.shown id (fuel t) u k ha hvs (by omega) hf hf0
  have hwire := hs.wire
  rw [stream_drop] at hwire
  have hiff : ∀ j, Acceptable ps (field t.connect 80 8) (head t.connect u.connectData ps k0 up0 o0) u.wire k0 k id j ↔
      Reaches ps (field t.connect 80 8) (sentOff u) k id j := by
    intro j
    constructor
    · rintro ⟨g1, g2, g3, g4, g5, g6⟩
      exact ⟨g1, g2, g3, g4, (onWire_iff hs (by omega)).1 g5, g6⟩
    · rintro ⟨g1, g2, g3, g4, g5, g6⟩
      exact ⟨g1, g2, g3, g4, (onWire_iff hs (by omega)).2 g5, g6⟩
  rw [← hconn]
  refine ⟨k, k0, up0, o0, ⟨ha.le, ha.acked, ha.frame, ha.info⟩, hk0, ?_, ?_, ?_⟩
  · rw [hwire]; exact List.take_prefix _ _
  · intro hid
    unfold ackFrames
    rw [h1 hid]
  · intro hid
    unfold ackFrames
    rcases h2 hid with ⟨u', j, e, ha', hm, hre⟩ | ⟨⟨u', e, hm⟩, hno⟩
    · left
      rw [e]
      refine ⟨j, _, rfl, (hiff j).2 hre, ⟨ha'.le, ha'.acked, ha'.frame, ha'.info⟩, rfl, rfl, ?_, ?_⟩
      · show u'.wire = _; rw [hm]
      · show u'.busy = _; rw [hm]
    · right
      rw [e]
      exact ⟨⟨_, rfl, rfl⟩, fun j hj => hno j ((hiff j).1 hj)⟩

/-- **C22**, before a connection has started: an ack for a frame that is not acknowledged is rejected. -/
theorem ack_early_partial {calm : Bool} {cap : Nat} {connect : List UInt8} {t : Track} {ps : List Packet}
    (h : Reach calm cap connect t ps) {u : Up} (hu : u ∈ t.ups) (hc : u.conn = true) (hl : u.last = false)
    {id : Nat} (hid : u.frame < id) (up o : Nat) :
    ∃ u', ackFrames t u id up o = .ok (false, u') ∧ u'.noRepublish = true := by
  have hg := reach_good h
  have hui := hg.inv.ups u hu
  have hn := hg.inv.nodes hu
  obtain ⟨k, ha, _⟩ := hui.acked
  have hx := hg.inv.ctx hn
  have hvs := sentOff_vis hui hc
  have hvis := hx.shown.vis
  have hroom := hg.room hn
  obtain ⟨hf, hf0⟩ := fuel_enough hx.shown k
  obtain ⟨_, h2⟩ := ackFramesLoop_spec hx.shown id (fuel t) u k ha hvs (by omega) hf hf0
  unfold ackFrames
  rcases h2 hid with ⟨u', j, e, ha', hm, hre⟩ | ⟨⟨u', e, hm⟩, hno⟩
  · exfalso
    obtain ⟨_, hw, hb⟩ := hui.idle hl
    have hst := off_strict hx.shown.good hre.1 hre.2.1
    have hle : (off ps j : Int) ≤ sentOff u := hre.2.2.2.2.1
    have hac := ha.acked
    unfold sentOff at hle
    rw [hw hc, List.length_nil] at hle
    omega
  · rw [e]
    exact ⟨_, rfl, rfl⟩

/-- A rejected ack packet ends the upstream: it is removed and not published again. -/
theorem reject_removes {t : Track} {u u' : Up} {b : List UInt8} (hb : b.length = 40) (hr : u.recv = [])
    (ht : field b 0 4 = tAck ∧ field b 4 4 = 40 ∧ field b 8 4 = 0) (hp : u.policy = .lastAcked)
    (he : ackFrames t u (field b 16 8) (field b 24 8) (field b 32 4) = .ok (false, u')) (hn : u'.noRepublish = true)
    (more : List UInt8) (closed allowed : Bool) : readHandler t u (b ++ more) closed allowed = .ok none := by
  have e1 : recvLoop t ((b ++ more).length + 2) u (b ++ more) = .ok (false, u') := by
    unfold recvLoop
    dsimp only
    rw [hr, List.length_nil, Nat.sub_zero, if_neg (by rw [List.length_append]; omega), List.nil_append, take_exact _ hb]
    have hu : { u with recv := [] } = u := by rw [← hr]
    rw [hu]
    unfold parseAck
    rw [ht.1, ht.2.1, ht.2.2, hp, he]
    rfl
  unfold readHandler
  rw [e1]
  dsimp only
  unfold upError republish
  rw [hn]
  rfl

/-! ## Cases -/

/-- A packet of the given type. -/
def mk (ty : Nat) (body : List UInt8) : Packet :=
  { raw := bytesOf 4 ty ++ bytesOf 4 16 ++ bytesOf 4 body.length ++ bytesOf 4 0, body }

/-- No memory pressure; nothing is sent. -/
def still : Env := { wm := [], ios := [], allowed := true }

/-- A packet written by one call. -/
def wr (p : Packet) (e : Env) (f : Bool) : Op := .packet [(e, [Packet.bytes p])] f

def info0 : Packet := mk tMediaInfo [1, 2, 3, 4, 5, 6, 7, 8]
def frame0 : Packet := mk tFrame [10, 11, 12, 13]
def frame1 : Packet := mk tFrame [20, 21, 22, 23]
def null0 : Packet := mk tNull []
def eos0 : Packet := mk tEos []
def conn0 : List UInt8 := bytesOf 4 tConnect ++ bytesOf 4 104 ++ List.replicate 96 0

/-- Events in a row. -/
def run : Track → List Op → Res Track
  | t, [] => .ok t
  | t, op :: ops =>
    match step t op with
    | .ok t1 => run t1 ops
    | .err => .err
    | .ub => .ub

/-- The state after an event. -/
def after (t : Track) (op : Op) : Track :=
  match step t op with
  | .ok t' => t'
  | _ => t

def isOk : Res Track → Bool
  | .ok _ => true
  | _ => false

theorem reach_after {calm : Bool} {cap : Nat} {connect : List UInt8} {t : Track} {ps ps' : List Packet} (op : Op)
    (h : Reach calm cap connect t ps) (ha : Allowed calm t ps op ps') (ho : isOk (step t op) = true) :
    Reach calm cap connect (after t op) ps' := by
  unfold after
  cases e : step t op with
  | ok t' => exact .step h ha e
  | err => rw [e] at ho; exact nomatch ho
  | ub => rw [e] at ho; exact nomatch ho

theorem allowed_wr {calm : Bool} {t : Track} {ps : List Packet} (p : Packet) (e : Env) (f : Bool)
    (hn : Next calm t.connect ps p) (he : calm = true → e.wm = []) : Allowed calm t ps (wr p e f) (ps ++ [p]) :=
  ⟨p, rfl, hn, by simp [written], fun hc x hx => by
    simp only [List.map_cons, List.map_nil, List.mem_singleton] at hx
    rw [hx]; exact he hc⟩

/-- A calm history: two upstreams; the first is connected, sends a media info, two frames and the end of stream
over several small buffers, and gets an ack for the first frame. -/
def calmOps : List Op :=
  [wr info0 still false, .add none .lastAcked [], .add (some 0) .lastAcked [7], .connect 0 [], wr frame0 still true,
   .writable 0 (.room 110) true, wr frame1 still true, wr eos0 still false, .flush { still with ios := [some (.room 50)] },
   .readable 0 (KmpInAck.packet 1) false true]

def calmTrack : Track := calmOps.foldl after (create 24 conn0)

theorem reach_calm : Reach true 24 conn0 calmTrack [info0, frame0, frame1, eos0] := by
  have h0 : Reach true 24 conn0 (create 24 conn0) [] := .create (by decide) (by decide)
  have h1 := reach_after _ h0 (allowed_wr info0 still false (by unfold Next; decide +kernel) (fun _ => rfl)) (by decide +kernel)
  have h2 := reach_after (.add none .lastAcked []) h1
    ⟨rfl, fun _ => rfl, (fun h => nomatch h), fun _ => by decide +kernel⟩ (by decide +kernel)
  have h3 := reach_after (.add (some 0) .lastAcked [7]) h2
    ⟨rfl, fun _ => rfl, (fun h => nomatch h), (fun h => nomatch h)⟩ (by decide +kernel)
  have h4 := reach_after (.connect 0 []) h3 rfl (by decide +kernel)
  have h5 := reach_after _ h4 (allowed_wr frame0 still true (by unfold Next; decide +kernel) (fun _ => rfl)) (by decide +kernel)
  have h6 := reach_after (.writable 0 (.room 110) true) h5 ⟨rfl, (fun h => nomatch h)⟩ (by decide +kernel)
  have h7 := reach_after _ h6 (allowed_wr frame1 still true (by unfold Next; decide +kernel) (fun _ => rfl)) (by decide +kernel)
  have h8 := reach_after _ h7 (allowed_wr eos0 still false (by unfold Next; decide +kernel) (fun _ => rfl)) (by decide +kernel)
  have h9 := reach_after (.flush { still with ios := [some (.room 50)] }) h8 rfl (by decide +kernel)
  have h10 := reach_after (.readable 0 (KmpInAck.packet 1) false true) h9 rfl (by decide +kernel)
  unfold calmTrack calmOps
  simp only [List.foldl]
  exact h10

/-- In the calm history the first upstream has acked the media info and a frame (C20, C22), is in the middle of a
connection (C21), and the second one has acked nothing and holds the buffers. -/
example : calmTrack.ups.map (fun u => (u.frame, u.acked, u.last, u.wire.length, u.busy.length))
    = [(1, 44, true, 160, 2), (0, 0, false, 0, 0)] ∧ calmTrack.base = 0 ∧ calmTrack.nodes.length = 4 := by decide +kernel

/-- A history that is not calm: one upstream with the last sent policy, memory pressure, and buffers released. -/
def pressOps : List Op :=
  [wr info0 still false, .add none .lastSent [], .connect 0 [], .writable 0 (.room 1000) true,
   wr frame0 { still with ios := [some (.room 1000)] } true, wr frame1 { wm := [(30, true)], ios := [], allowed := true } true]

def pressTrack : Track := pressOps.foldl after (create 24 conn0)

theorem reach_press : Reach false 24 conn0 pressTrack [info0, frame0, frame1] := by
  have h0 : Reach false 24 conn0 (create 24 conn0) [] := .create (by decide) (by decide)
  have h1 := reach_after _ h0 (allowed_wr info0 still false (by unfold Next; decide +kernel) (fun _ => rfl)) (by decide +kernel)
  have h2 := reach_after (.add none .lastSent []) h1
    ⟨rfl, (fun h => nomatch h), fun _ => by decide +kernel, fun _ => by decide +kernel⟩ (by decide +kernel)
  have h3 := reach_after (.connect 0 []) h2 rfl (by decide +kernel)
  have h4 := reach_after (.writable 0 (.room 1000) true) h3 ⟨rfl, fun _ u hu _ => by
    have e : ((after (after (after (create 24 conn0) (wr info0 still false)) (.add none .lastSent [])) (.connect 0 [])).ups[0]?).map (·.acked)
      = some 0 := by decide +kernel
    rw [hu] at e
    simp only [Option.map_some, Option.some.injEq] at e
    rw [e]; exact Nat.zero_le _⟩ (by decide +kernel)
  have h5 := reach_after _ h4 (allowed_wr frame0 { still with ios := [some (.room 1000)] } true (by unfold Next; decide +kernel)
    (fun h => nomatch h)) (by decide +kernel)
  have h6 := reach_after _ h5 (allowed_wr frame1 { wm := [(30, true)], ios := [], allowed := true } true (by unfold Next; decide +kernel)
    (fun h => nomatch h)) (by decide +kernel)
  unfold pressTrack pressOps
  simp only [List.foldl]
  exact h6

example : pressTrack.ups.map (fun u => (u.frame, u.acked, u.last)) = [(1, 44, false)] ∧ pressTrack.base = 1 ∧
    pressTrack.nodes.length = 2 := by decide +kernel

/-! ## Where the code does not have the properties -/

/-- C20 is false in general: the first upstream has the last sent policy and acks a media info on its own, the
second one has acked nothing; both are at the same frame id, and the buffer of the media info is released. -/
def tieOps : List Op :=
  [wr info0 still false, .add none .lastSent [], .add none .lastAcked [], .connect 0 [], .writable 0 (.room 10000) true,
   wr null0 still false, .flush { still with ios := [some (.room 10000)] }, .connect 1 []]

/-- The second upstream has acked nothing, byte 0 is not held, and its new connection looks at a released buffer. -/
theorem tie_releases :
    (match run (create 24 conn0) tieOps with
    | .ok t => decide ((t.ups[1]?.map (·.acked)) = some 0 ∧ held t 0 = none ∧
        run t [.writable 1 (.room 10000) true] = .ub)
    | _ => false) = true := by decide +kernel

/-- C21 is false in general: an upstream without a connection acks a frame that was not handed out, under memory
pressure; then a connection starts before the next flush. -/
def skewOps : List Op :=
  [wr info0 still false, .flush still, .add none .lastAcked [], wr frame0 still true,
   wr frame1 { still with wm := [(1000, true)] } true, .connect 0 [], .writable 0 (.room 10000) true,
   .flush { still with ios := [some (.room 20)] }]

/-- The connect packet announces frame 1, and what follows the media info is frame 0, which is acked. -/
theorem skewed_wire :
    (match run (create 1000 conn0) skewOps with
    | .ok t => decide (t.ups.map (fun u => (u.frame, u.acked)) = [(1, 44)] ∧
        t.ups.map (fun u => field u.wire 80 8) = [1] ∧
        t.ups.map (fun u => u.wire.drop 104) = [Packet.bytes info0 ++ Packet.bytes frame0])
    | _ => false) = true := by decide +kernel

/-- C22 is false in general: after the same events frame 1 was not sent at all, and an ack for it is accepted. -/
theorem skewed_ack :
    (match run (create 1000 conn0) (skewOps ++ [.readable 0 (KmpInAck.packet 2) false true]) with
    | .ok t => decide (t.ups.map (fun u => (u.frame, u.acked)) = [(2, 64)] ∧
        t.ups.map (fun u => u.wire.drop 104) = [Packet.bytes info0 ++ Packet.bytes frame0])
    | _ => false) = true := by decide +kernel

/-- An automatic ack takes the header of an end of stream from its reader and does not count it: the next one looks
at bytes that were not written. -/
def eosOps : List Op :=
  [wr info0 still false, .add none .lastSent [], .connect 0 [], .writable 0 (.room 10000) true, wr frame0 still true,
   wr eos0 still false, .flush { still with ios := [some (.room 10000)] }]

theorem eos_overread :
    (match run (create 1000 conn0) eosOps with
    | .ok t => decide (t.ups.map (fun u => (u.acked, Stream.off u.reader t.cap)) = [(44, 60)] ∧ t.written = 60 ∧
        run t [.writable 0 (.room 10000) true] = .ub)
    | _ => false) = true := by decide +kernel

end Verif.KmpOut
