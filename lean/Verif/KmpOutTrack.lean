import Verif.KmpOutUp

/-!
# A KMP track and its upstreams: what every event keeps (lemmas for C20, C21, C22)
-/

namespace Verif.KmpOut

open Verif.KmpIn (field ptype hsize dsize tMediaInfo tFrame tNull tEos tConnect Packet Valid Whole frames frames_append
  frames_one)
open Verif.BufStream (Stream)

/-- What holds of a track to which the bytes `S` were written, the first `v` of which are those of the packets. -/
structure Inv (calm : Bool) (t : Track) (ps : List Packet) (S : List UInt8) (v : Nat) : Prop where
  shown  : Shown t ps S v
  frameV : t.lastFrame ≤ v
  frameT : t.nodes ≠ [] → t.lastFrame < total t
  eos    : calm = false → NoEos ps
  one    : calm = false → t.ups.length ≤ 1
  none   : t.nodes = [] → t.ups = []
  base   : t.base * t.cap ≤ v
  ups    : ∀ u ∈ t.ups, UpInv calm t ps v u
  seen   : t.blocked = false → v = S.length

/-- There is room in the active buffer. -/
def Room (t : Track) (S : List UInt8) : Prop := t.nodes ≠ [] → S.length < total t

theorem Inv.nodes {calm : Bool} {t : Track} {ps : List Packet} {S : List UInt8} {v : Nat} (h : Inv calm t ps S v) {u : Up}
    (hu : u ∈ t.ups) : t.nodes ≠ [] := by
  intro hn
  have := h.none hn
  rw [this] at hu
  exact nomatch hu

theorem Inv.ctx {calm : Bool} {t : Track} {ps : List Packet} {S : List UInt8} {v : Nat} (h : Inv calm t ps S v)
    (hn : t.nodes ≠ []) : Ctx calm t ps S v := ⟨h.shown, h.frameV, h.frameT hn, h.eos⟩

theorem infoOf_append_take {ps qs : List Packet} {k : Nat} (h : k ≤ ps.length) : (ps ++ qs).take k = ps.take k :=
  List.take_append_of_le_length h

theorem legit_more {connect cd : List UInt8} {ps qs : List Packet} {a : Nat} {w : List UInt8} (h : Legit connect cd ps a w) :
    Legit connect cd (ps ++ qs) a w := by
  rcases h with h | ⟨k0, up, o, h1, h2, h3⟩
  · exact Or.inl h
  · refine Or.inr ⟨k0, up, o, by rw [List.length_append]; omega, by rw [off_append h1]; exact h2, ?_⟩
    have hH : head connect cd (ps ++ qs) k0 up o = head connect cd ps k0 up o := by
      unfold head; rw [infoOf_append_take h1]
    rw [hH, List.drop_append_of_le_length h1, stream_append, ← List.append_assoc]
    exact h3.trans (List.prefix_append _ _)

/-- What an upstream knows stays true when the track goes on. -/
theorem upinv_mono {calm : Bool} {t t' : Track} {ps qs : List Packet} {v v' : Nat} {u : Up} (h : UpInv calm t ps v u)
    (hvp : v ≤ (stream ps).length) (hcap : t'.cap = t.cap) (hcon : t'.connect = t.connect) (hb : t'.base ≤ u.reader.posNode)
    (hs : sofar t' = sofar t) (ht : total t ≤ total t') (hv : v ≤ v') : UpInv calm t' (ps ++ qs) v' u := by
  obtain ⟨k, ha, hcan⟩ := h.acked
  have hlow := h.low
  have hlt := h.lt
  refine ⟨⟨k, ⟨?_, ?_, ⟨ha.reader.same, by rw [hcap]; exact ha.reader.inside, ?_, hb⟩, ?_, ?_⟩, ?_⟩, by omega, by omega,
    by rw [hs]; exact h.calm, h.idle, ?_, fun _ => by rw [hcon]; exact legit_more h.legit⟩
  · rw [List.length_append]; have := ha.le; omega
  · rw [off_append ha.le]; exact ha.acked
  · rw [hcap, off_append ha.le]; exact ha.reader.pos
  · rw [hcon, infoOf_append_take ha.le]; exact ha.frame
  · rw [infoOf_append_take ha.le]; exact ha.info
  · intro hc
    unfold Canon
    rw [infoOf_append_take ha.le, infoOf_append_take (by have := ha.le; omega)]
    exact hcan hc
  · intro hl
    obtain ⟨hc, k0, up, o, os, rs, hsent⟩ := h.live hl
    refine ⟨hc, k0, up, o, os, rs, ?_⟩
    have hst := hsent.start
    have hH : head t'.connect u.connectData (ps ++ qs) k0 up o = head t.connect u.connectData ps k0 up o := by
      unfold head; rw [hcon, infoOf_append_take hst]
    rw [hH]
    have hvis := hsent.vis
    refine ⟨by rw [List.length_append]; omega, by rw [off_append hst]; exact hsent.base, ?_,
      by rw [off_append hst]; exact hsent.le, by rw [off_append hst]; exact hsent.ahead,
      by rw [off_append hst]; omega, hsent.busy, hsent.own, by rw [off_append hst, hcap, hs]; exact hsent.refs⟩
    rw [off_append hst, stream_append, List.drop_append_of_le_length (off_le_length ps k0), ← List.append_assoc,
      List.take_append_of_le_length]
    · exact hsent.wire
    · rw [List.length_append, List.length_drop]
      omega

theorem upinv_keep {calm : Bool} {t t' : Track} {ps : List Packet} {v v' : Nat} {u : Up} (h : UpInv calm t ps v u)
    (hvp : v ≤ (stream ps).length) (hcap : t'.cap = t.cap) (hcon : t'.connect = t.connect) (hb : t'.base ≤ u.reader.posNode)
    (hs : sofar t' = sofar t) (ht : total t ≤ total t') (hv : v ≤ v') : UpInv calm t' ps v' u := by
  have := upinv_mono (qs := []) h hvp hcap hcon hb hs ht hv
  rwa [List.append_nil] at this

theorem UpInv.alive {calm : Bool} {t : Track} {ps : List Packet} {v : Nat} {u : Up} (h : UpInv calm t ps v u) :
    t.base ≤ u.reader.posNode := by
  obtain ⟨k, ha, _⟩ := h.acked
  exact ha.reader.alive

/-! ## Releasing buffers -/

/-- An upstream with a smaller frame id is not ahead. -/
theorem tie {calm : Bool} {t : Track} {ps : List Packet} {S : List UInt8} {v : Nat} (h : Inv calm t ps S v) {u w : Up}
    (hu : u ∈ t.ups) (hw : w ∈ t.ups) (hf : u.frame ≤ w.frame) : u.reader.posNode ≤ w.reader.posNode := by
  cases calm
  · have h1 := h.one rfl
    match hl : t.ups, hu, hw, h1 with
    | [x], hu, hw, _ =>
      rw [List.mem_singleton.1 hu, List.mem_singleton.1 hw]
      exact Nat.le_refl _
    | x :: y :: r, _, _, h1 => simp only [List.length_cons] at h1; omega
  · obtain ⟨ku, hau, hcu⟩ := (h.ups u hu).acked
    obtain ⟨kw, haw, hcw⟩ := (h.ups w hw).acked
    have hk : ku ≤ kw := by
      rcases Nat.lt_or_ge kw ku with hlt | hge
      · exfalso
        have h1 := hau.frame
        have h2 := haw.frame
        have h3 := frames_mono ps (show kw ≤ ku - 1 by omega)
        rcases hcu rfl with h4 | h4 <;> omega
      · exact hge
    have h1 := off_mono ps hk
    exact node_mono haw.reader.inside (show u.reader.posNode * t.cap + u.reader.posOff ≤ w.reader.posNode * t.cap + w.reader.posOff by
      rw [hau.reader.pos, haw.reader.pos]; exact h1)

/-- Buffers are released up to the upstream with the smallest frame id. -/
theorem inv_free {calm : Bool} {t : Track} {ps : List Packet} {S : List UInt8} {v : Nat} (h : Inv calm t ps S v) {u : Up}
    (hu : u ∈ t.ups) (hmin : ∀ w ∈ t.ups, u.frame ≤ w.frame) :
    let t' := freeBufs t u.reader
    Inv calm t' ps S v ∧ t'.nodes ≠ [] ∧ top t' = top t ∧ total t' = total t ∧
    t' = { t with base := t'.base, nodes := t'.nodes } := by
  obtain ⟨k, ha, _⟩ := (h.ups u hu).acked
  have hac := ha.acked
  have hlt := (h.ups u hu).lt
  have hlow := (h.ups u hu).low
  obtain ⟨hm, hb, htop, htot, hne, he⟩ := freeBufs_spec h.shown.mem ha.reader (by omega)
  refine ⟨⟨⟨hm, h.shown.vis, h.shown.same, h.shown.inps, h.shown.good, ?_⟩, ?_, ?_, h.eos, ?_, ?_, ?_, ?_, ?_⟩, hne, htop, htot, he⟩
  · rw [he]; exact h.shown.few
  · rw [he]; exact h.frameV
  · intro _; rw [htot, he]; exact h.frameT (h.nodes hu)
  · rw [he]; exact h.one
  · intro hc; exact absurd hc hne
  · rw [hb]
    have h1 := ha.reader.pos
    have h2 : (freeBufs t u.reader).cap = t.cap := by rw [he]
    rw [h2]
    omega
  · intro w hw
    have hw' : w ∈ t.ups := by rw [he] at hw; exact hw
    have hs : sofar (freeBufs t u.reader) = sofar t := by
      unfold sofar; rw [htop, he]
    refine upinv_keep (h.ups w hw') h.shown.inps (by rw [he]) (by rw [he]) ?_ hs (by rw [htot]; exact Nat.le_refl _) (Nat.le_refl _)
    rw [hb]
    exact tie h hu hw' (hmin w hw')
  · rw [he]; exact h.seen

theorem minUsed_spec : ∀ (us : List Up) (m : Nat) (r : Option Stream),
    (minUsed us m r = r ∧ ∀ w ∈ us, m ≤ w.frame) ∨
    (∃ u ∈ us, minUsed us m r = some u.reader ∧ u.frame < m ∧ ∀ w ∈ us, u.frame ≤ w.frame)
  | [], m, r => Or.inl ⟨rfl, (fun _ h => nomatch h)⟩
  | x :: us, m, r => by
    unfold minUsed
    by_cases hx : x.frame < m
    · rw [if_pos hx]
      right
      rcases minUsed_spec us x.frame (some x.reader) with ⟨e, h⟩ | ⟨u, hu, e, hlt, h⟩
      · refine ⟨x, List.mem_cons_self, e, hx, fun w hw => ?_⟩
        rcases List.mem_cons.1 hw with hw | hw
        · rw [hw]; exact Nat.le_refl _
        · exact h w hw
      · refine ⟨u, List.mem_cons_of_mem _ hu, e, by omega, fun w hw => ?_⟩
        rcases List.mem_cons.1 hw with hw | hw
        · rw [hw]; omega
        · exact h w hw
    · rw [if_neg hx]
      rcases minUsed_spec us m r with ⟨e, h⟩ | ⟨u, hu, e, hlt, h⟩
      · left
        refine ⟨e, fun w hw => ?_⟩
        rcases List.mem_cons.1 hw with hw | hw
        · rw [hw]; omega
        · exact h w hw
      · right
        refine ⟨u, List.mem_cons_of_mem _ hu, e, hlt, fun w hw => ?_⟩
        rcases List.mem_cons.1 hw with hw | hw
        · rw [hw]; omega
        · exact h w hw

theorem each_spec {f : Up → Res Up} {Q : Up → Prop} : ∀ (us : List Up), (∀ u ∈ us, ∃ u', f u = .ok u' ∧ Q u') →
    ∃ us', each f us = .ok us' ∧ us'.length = us.length ∧ ∀ u ∈ us', Q u
  | [], _ => ⟨[], rfl, rfl, (fun _ h => nomatch h)⟩
  | u :: us, h => by
    obtain ⟨u', e, hq⟩ := h u List.mem_cons_self
    obtain ⟨us', e', hl, hqs⟩ := each_spec us (fun w hw => h w (List.mem_cons_of_mem _ hw))
    unfold each
    rw [e, e']
    refine ⟨u' :: us', rfl, by simp [hl], fun w hw => ?_⟩
    rcases List.mem_cons.1 hw with hw | hw
    · rw [hw]; exact hq
    · exact hqs w hw

/-- The part of a track that handing out the active buffer leaves alone. -/
def Frame (t t' : Track) : Prop :=
  t'.cap = t.cap ∧ t'.last = t.last ∧ t'.written = t.written ∧ t'.lastFrame = t.lastFrame ∧ t'.blocked = t.blocked ∧
  t'.connect = t.connect ∧ top t' = top t ∧ total t' = total t ∧ (t'.nodes = [] ↔ t.nodes = [])

/-- `ngx_kmp_out_track_append_all`. -/
theorem inv_appendAll {calm : Bool} {t : Track} {ps : List Packet} {S : List UInt8} {v : Nat} (h : Inv calm t ps S v) :
    ∃ t', appendAll t = .ok t' ∧ Inv calm t' ps S v ∧ t'.pos = t'.last ∧ Frame t t' := by
  unfold appendAll
  by_cases hp : t.last ≤ t.pos
  · rw [if_pos hp]
    have := h.shown.mem.pos
    exact ⟨t, rfl, h, by omega, rfl, rfl, rfl, rfl, rfl, rfl, rfl, rfl, Iff.rfl⟩
  · rw [if_neg hp]
    have hne : t.nodes ≠ [] := by
      intro hn
      have := (h.shown.mem.empty hn).2.2
      omega
    obtain ⟨us, e, hl, hq⟩ := each_spec (f := appendBuffer t) (Q := UpInv calm { t with pos := t.last } ps v) t.ups
      (fun u hu => upinv_append (h.ctx hne) (h.ups u hu) (by omega))
    rw [e]
    dsimp only
    have h1 : Inv calm { t with ups := us, pos := t.last } ps S v := by
      have hm := h.shown.mem
      refine ⟨⟨⟨hm.cap, hm.size, hm.written, hm.empty, hm.place, hm.last, Nat.le_refl _, hm.content⟩, h.shown.vis,
        h.shown.same, h.shown.inps, h.shown.good, h.shown.few⟩, h.frameV, h.frameT, h.eos, ?_, ?_, h.base, ?_, h.seen⟩
      · intro hc; show us.length ≤ 1; rw [hl]; exact h.one hc
      · intro hc; exact absurd hc hne
      · intro u hu
        exact upinv_keep (hq u hu) h.shown.inps rfl rfl (hq u hu).alive rfl (Nat.le_refl _) (Nat.le_refl _)
    rcases minUsed_spec us 18446744073709551615 Option.none with ⟨e1, hall⟩ | ⟨u, hu, e1, _, hmin⟩
    · rw [e1]
      exact ⟨_, rfl, h1, rfl, rfl, rfl, rfl, rfl, rfl, rfl, rfl, rfl, Iff.rfl⟩
    · rw [e1]
      obtain ⟨h2, hne2, htop, htot, he⟩ := inv_free h1 hu hmin
      refine ⟨_, rfl, h2, by rw [he], by rw [he], by rw [he], by rw [he], by rw [he], by rw [he], by rw [he], htop, htot, ?_⟩
      exact ⟨fun hc => absurd hc hne2, fun hc => absurd hc hne⟩

/-! ## Writing -/

/-- The bytes that are written next are those of the packets, unless sending is blocked. -/
def Fit (t : Track) (ps : List Packet) (S data : List UInt8) : Prop := t.blocked = false → S ++ data <+: stream ps

/-- What is visible behind more bytes. -/
def visible (t : Track) (S : List UInt8) (v : Nat) : Nat := if t.blocked then v else S.length

theorem Fit.head {t : Track} {ps : List Packet} {S a b : List UInt8} (h : Fit t ps S (a ++ b)) : Fit t ps S a := by
  intro hb
  have := h hb
  rw [← List.append_assoc] at this
  exact (List.prefix_append _ _).trans this

theorem Fit.tail {t : Track} {ps : List Packet} {S a b : List UInt8} (h : Fit t ps S (a ++ b)) : Fit t ps (S ++ a) b := by
  intro hb
  rw [List.append_assoc]
  exact h hb

theorem visible_visible (t t' : Track) (S S' : List UInt8) (v : Nat) (h : t'.blocked = t.blocked) :
    visible t' S' (visible t S v) = visible t S' v := by
  unfold visible
  rw [h]
  split <;> rfl

theorem inv_copyIn {calm : Bool} {t : Track} {ps : List Packet} {S : List UInt8} {v : Nat} (h : Inv calm t ps S v)
    (hn : t.nodes ≠ []) (b : List UInt8) (hb : t.last + b.length ≤ t.cap) (hf : Fit t ps S b) :
    let t' := copyIn t b
    Inv calm t' ps (S ++ b) (visible t (S ++ b) v) ∧ t'.nodes ≠ [] ∧ t'.last = t.last + b.length ∧ t'.blocked = t.blocked ∧
    t'.cap = t.cap ∧ t'.lastFrame = t.lastFrame ∧ t'.connect = t.connect ∧ t'.pos = t.pos ∧ total t' = total t := by
  obtain ⟨hm, hbase, hlen, hlast, he⟩ := copyIn_spec h.shown.mem hn b hb
  have hcap : (copyIn t b).cap = t.cap := by rw [he]
  have hups : (copyIn t b).ups = t.ups := by rw [he]
  have hbl : (copyIn t b).blocked = t.blocked := by rw [he]
  have hfr : (copyIn t b).lastFrame = t.lastFrame := by rw [he]
  have hcon : (copyIn t b).connect = t.connect := by rw [he]
  have hpos : (copyIn t b).pos = t.pos := by rw [he]
  have htop : top (copyIn t b) = top t := by unfold top; rw [hbase, hlen, hcap]
  have htot : total (copyIn t b) = total t := by unfold total; rw [hbase, hlen, hcap]
  have hne : (copyIn t b).nodes ≠ [] := by
    rw [← List.length_pos_iff, hlen]; exact List.length_pos_iff.2 hn
  have hvv : v ≤ visible t (S ++ b) v := by
    unfold visible
    have := h.shown.vis
    split
    · exact Nat.le_refl _
    · rw [List.length_append]; omega
  refine ⟨⟨⟨hm, ?_, ?_, ?_, h.shown.good, by rw [hcon]; exact h.shown.few⟩, ?_, ?_, h.eos, by rw [hups]; exact h.one, ?_, ?_, ?_, ?_⟩, hne,
    hlast, hbl, hcap, hfr, hcon, hpos, htot⟩
  · unfold visible
    have := h.shown.vis
    split
    · rw [List.length_append]; omega
    · exact Nat.le_refl _
  · unfold visible
    split
    · rw [List.take_append_of_le_length h.shown.vis]; exact h.shown.same
    · next hb' =>
      have := hf (by simpa using hb')
      obtain ⟨r, hr⟩ := this
      rw [← hr, List.take_length, List.take_left]
  · unfold visible
    split
    · exact h.shown.inps
    · next hb' => exact (hf (by simpa using hb')).length_le
  · rw [hfr]; have := h.frameV; omega
  · intro _; rw [hfr, htot]; exact h.frameT hn
  · intro hc; exact absurd hc hne
  · rw [hbase, hcap]; have := h.base; omega
  · rw [hups]
    intro u hu
    refine upinv_keep (h.ups u hu) h.shown.inps hcap hcon (by rw [hbase]; exact (h.ups u hu).alive) ?_ (by omega) hvv
    unfold sofar; rw [htop, hpos]
  · rw [hbl]
    intro hc
    unfold visible
    rw [hc]
    rfl

theorem inv_newNode {calm : Bool} {t : Track} {ps : List Packet} {S : List UInt8} {v : Nat} (h : Inv calm t ps S v)
    (hf : t.nodes ≠ [] → t.last = t.cap) (hp : t.pos = t.last) :
    let t' := newNode t
    Inv calm t' ps S v ∧ t'.nodes ≠ [] ∧ t'.last = 0 ∧ t'.blocked = t.blocked ∧ t'.cap = t.cap ∧
    t'.lastFrame = t.lastFrame ∧ t'.connect = t.connect := by
  obtain ⟨hm, hne, hb, hl, htop, htot, he⟩ := newNode_spec h.shown.mem hf
  have hcap := h.shown.mem.cap
  have hle := len_le_total h.shown.mem
  have hvis := h.shown.vis
  have hfv := h.frameV
  refine ⟨⟨⟨hm, h.shown.vis, h.shown.same, h.shown.inps, h.shown.good, h.shown.few⟩, h.frameV, ?_, h.eos, h.one, ?_, h.base, ?_, h.seen⟩,
    hne, hl, rfl, rfl, rfl, rfl⟩
  · intro _
    rw [htot]
    show t.lastFrame < _
    omega
  · intro hc; exact absurd hc hne
  · intro u hu
    have hn := h.nodes hu
    refine upinv_keep (h.ups u hu) h.shown.inps rfl rfl (h.ups u hu).alive ?_ (by omega) (Nat.le_refl _)
    unfold sofar
    rw [htop, total_eq hn, hp, hf hn]
    rfl

theorem room_last {t : Track} {S : List UInt8} (h : Mem t S) (hr : Room t S) (hn : t.nodes ≠ []) : t.last < t.cap := by
  have h1 := hr hn
  have h2 := h.place hn
  have h3 := total_eq hn
  omega

theorem room_of_last {t : Track} {S : List UInt8} (h : Mem t S) (hl : t.nodes ≠ [] → t.last < t.cap) : Room t S := by
  intro hn
  have h1 := hl hn
  have h2 := h.place hn
  have h3 := total_eq hn
  omega

/-- Some fields never change while a track is written to. -/
def Stays (t t' : Track) : Prop :=
  t'.blocked = t.blocked ∧ t'.cap = t.cap ∧ t'.lastFrame = t.lastFrame ∧ t'.connect = t.connect

theorem Stays.refl (t : Track) : Stays t t := ⟨rfl, rfl, rfl, rfl⟩

theorem Stays.trans {a b c : Track} (h : Stays a b) (h' : Stays b c) : Stays a c :=
  ⟨h'.1.trans h.1, h'.2.1.trans h.2.1, h'.2.2.1.trans h.2.2.1, h'.2.2.2.trans h.2.2.2⟩

theorem inv_writeLoop {calm : Bool} {ps : List Packet} : ∀ (n : Nat) (t : Track) (S : List UInt8) (v : Nat)
    (data : List UInt8), Inv calm t ps S v → Room t S → Fit t ps S data →
    data.length + (if t.nodes = [] then 2 else 1) ≤ n →
    ∃ t', writeLoop n t data = .ok t' ∧ Inv calm t' ps (S ++ data) (visible t (S ++ data) v) ∧ Room t' (S ++ data) ∧ Stays t t' ∧
      (data ≠ [] ∨ t.nodes ≠ [] → t'.nodes ≠ [])
  | 0, t, S, v, data, _, _, _, hn => by exfalso; split at hn <;> omega
  | n + 1, t, S, v, data, h, hr, hf, hn => by
    unfold writeLoop
    by_cases hd : data = []
    · subst hd
      rw [List.append_nil]
      refine ⟨t, by simp, ?_, hr, Stays.refl t, ?_⟩
      · unfold visible
        cases hb : t.blocked
        · have := h.seen hb
          simp only [Bool.false_eq_true, if_false]
          rw [← this]; exact h
        · exact h
      · intro hc; rcases hc with hc | hc
        · exact absurd rfl hc
        · exact hc
    · have hde : data.isEmpty = false := by cases data; exact absurd rfl hd; rfl
      have hdl : 0 < data.length := List.length_pos_iff.2 hd
      rw [hde]
      simp only [Bool.false_eq_true, if_false]
      by_cases hne : t.nodes = []
      · rw [hne] at hn
        simp only [if_true] at hn
        obtain ⟨hb0, hS0, hl0⟩ := h.shown.mem.empty hne
        have hsz : min (0 - t.last) data.length = 0 := by omega
        simp only [hne, List.isEmpty_nil, if_true, hsz]
        rw [if_pos (Nat.zero_le _)]
        obtain ⟨t2, e2, h2, hp2, hfr⟩ := inv_appendAll h
        rw [e2]
        dsimp only
        obtain ⟨f1, f2, f3, f4, f5, f6, f7, f8, f9⟩ := hfr
        obtain ⟨h3, g1, g2, g3, g4, g5, g6⟩ := inv_newNode h2 (fun hc => absurd (f9.2 hne) hc) hp2
        have hroom : Room (newNode t2) S := by
          refine room_of_last h3.shown.mem (fun _ => ?_)
          rw [g2, g4, f1]
          exact h.shown.mem.cap
        obtain ⟨t', e', h', hr', hst, hnn⟩ := inv_writeLoop n (newNode t2) S v (data.drop 0) h3 hroom
          (by rw [List.drop_zero]; intro hb; rw [g3, f5] at hb; exact hf hb)
          (by rw [if_neg g1, List.drop_zero]; omega)
        rw [List.drop_zero] at h' hr' hnn
        rw [List.drop_zero] at e'
        rw [List.drop_zero]
        refine ⟨t', e', ?_, hr', ?_, fun _ => hnn (Or.inr g1)⟩
        · have : visible (newNode t2) (S ++ data) v = visible t (S ++ data) v := by unfold visible; rw [g3, f5]
          rw [← this]; exact h'
        · exact Stays.trans ⟨g3.trans f5, g4.trans f1, g5.trans f4, g6.trans f6⟩ hst
      · rw [if_neg hne] at hn
        have hlt := room_last h.shown.mem hr hne
        have hie : t.nodes.isEmpty = false := by
          cases hx : t.nodes with
          | nil => exact absurd hx hne
          | cons _ _ => rfl
        rw [hie]
        simp only [Bool.false_eq_true, if_false]
        have hspos : 0 < min (t.cap - t.last) data.length := by omega
        generalize hsz : min (t.cap - t.last) data.length = size at *
        rw [if_neg (show ¬size = 0 by omega)]
        have htl : (data.take size).length = size := by rw [List.length_take]; omega
        have hfit : Fit t ps S (data.take size ++ data.drop size) := by rw [List.take_append_drop]; exact hf
        obtain ⟨h1, i1, i2, i3, i4, i5, i6, i7, i8⟩ := inv_copyIn h hne (data.take size) (by omega) hfit.head
        rw [htl] at i2
        have hvv : visible (copyIn t (data.take size)) (S ++ data) (visible t (S ++ data.take size) v) = visible t (S ++ data) v :=
          visible_visible _ _ _ _ _ i3
        have hcat : S ++ data.take size ++ data.drop size = S ++ data := by
          rw [List.append_assoc, List.take_append_drop]
        by_cases hfull : t.cap ≤ (copyIn t (data.take size)).last
        · rw [if_pos hfull]
          obtain ⟨t2, e2, h2, hp2, hfr⟩ := inv_appendAll h1
          rw [e2]
          dsimp only
          obtain ⟨f1, f2, f3, f4, f5, f6, f7, f8, f9⟩ := hfr
          obtain ⟨h3, g1, g2, g3, g4, g5, g6⟩ := inv_newNode h2 (fun _ => by rw [f1, f2, i4]; omega) hp2
          have hroom : Room (newNode t2) (S ++ data.take size) := by
            refine room_of_last h3.shown.mem (fun _ => ?_)
            rw [g2, g4, f1, i4]
            exact h.shown.mem.cap
          obtain ⟨t', e', h', hr', hst, hnn⟩ := inv_writeLoop n (newNode t2) (S ++ data.take size) _ (data.drop size) h3 hroom
            (by intro hb; rw [g3, f5, i3] at hb; exact hfit.tail hb)
            (by rw [if_neg g1, List.length_drop]; omega)
          rw [hcat] at h' hr'
          refine ⟨t', e', ?_, hr', ?_, fun _ => hnn (Or.inr g1)⟩
          · rw [visible_visible _ _ _ _ _ (show (newNode t2).blocked = t.blocked by rw [g3, f5, i3])] at h'
            exact h'
          · exact Stays.trans ⟨(g3.trans f5).trans i3, (g4.trans f1).trans i4, (g5.trans f4).trans i5, (g6.trans f6).trans i6⟩ hst
        · rw [if_neg hfull]
          have hroom : Room (copyIn t (data.take size)) (S ++ data.take size) := by
            refine room_of_last h1.shown.mem (fun _ => ?_)
            rw [i4]; omega
          obtain ⟨t', e', h', hr', hst, hnn⟩ := inv_writeLoop n (copyIn t (data.take size)) (S ++ data.take size) _ (data.drop size) h1 hroom
            (by intro hb; rw [i3] at hb; exact hfit.tail hb)
            (by rw [if_neg i1, List.length_drop]; omega)
          rw [hcat] at h' hr'
          refine ⟨t', e', ?_, hr', ?_, fun _ => hnn (Or.inr i1)⟩
          · rw [visible_visible _ _ _ _ _ i3] at h'
            exact h'
          · exact Stays.trans ⟨i3, i4, i5, i6⟩ hst

theorem visible_same {calm : Bool} {t : Track} {ps : List Packet} {S : List UInt8} {v : Nat} (h : Inv calm t ps S v) :
    visible t S v = v := by
  unfold visible
  cases hb : t.blocked
  · rw [h.seen hb]; rfl
  · rfl

theorem inv_writeBufs {calm : Bool} {ps : List Packet} : ∀ (bufs : List (List UInt8)) (t : Track) (S : List UInt8) (v : Nat),
    Inv calm t ps S v → Room t S → Fit t ps S bufs.flatten →
    ∃ t', writeBufs t bufs = .ok t' ∧ Inv calm t' ps (S ++ bufs.flatten) (visible t (S ++ bufs.flatten) v) ∧
      Room t' (S ++ bufs.flatten) ∧ Stays t t'
  | [], t, S, v, h, hr, _ => by
    refine ⟨t, rfl, ?_, ?_, Stays.refl t⟩
    · simp only [List.flatten_nil, List.append_nil]
      rw [visible_same h]; exact h
    · simpa using hr
  | b :: bs, t, S, v, h, hr, hf => by
    rw [List.flatten_cons] at hf ⊢
    obtain ⟨t1, e1, h1, hr1, hst1, _⟩ := inv_writeLoop (b.length + 2) t S v b h hr hf.head (by split <;> omega)
    obtain ⟨t2, e2, h2, hr2, hst2⟩ := inv_writeBufs bs t1 (S ++ b) _ h1 hr1 (by
      intro hb; rw [hst1.1] at hb; exact hf.tail hb)
    unfold writeBufs
    rw [e1]
    dsimp only
    rw [visible_visible _ _ _ _ _ hst1.1, List.append_assoc] at h2
    rw [List.append_assoc] at hr2
    exact ⟨t2, e2, h2, hr2, hst1.trans hst2⟩

/-! ## Memory pressure -/

/-- Replacing upstreams. -/
theorem inv_ups {calm : Bool} {t : Track} {ps : List Packet} {S : List UInt8} {v : Nat} (h : Inv calm t ps S v)
    (us : List Up) (hl : calm = false → us.length ≤ 1) (hn : t.nodes = [] → us = []) (hu : ∀ u ∈ us, UpInv calm t ps v u) :
    Inv calm { t with ups := us } ps S v := by
  have hm := h.shown.mem
  refine ⟨⟨⟨hm.cap, hm.size, hm.written, hm.empty, hm.place, hm.last, hm.pos, hm.content⟩, h.shown.vis,
    h.shown.same, h.shown.inps, h.shown.good, h.shown.few⟩, h.frameV, h.frameT, h.eos, hl, hn, h.base, ?_, h.seen⟩
  intro u hm
  exact upinv_keep (hu u hm) h.shown.inps rfl rfl (hu u hm).alive rfl (Nat.le_refl _) (Nat.le_refl _)

theorem inv_watermark {ps : List Packet} {S : List UInt8} {v : Nat} : ∀ (wm : List (Nat × Bool)) (t : Track),
    Inv false t ps S v → Room t S →
    ∃ t', watermark t wm = .ok t' ∧ Inv false t' ps S v ∧ Room t' S ∧ Stays t t'
  | [], t, h, hr => ⟨t, rfl, h, hr, Stays.refl t⟩
  | (left, allowed) :: rest, t, h, hr => by
    unfold watermark
    match hl : t.ups, h.one rfl with
    | [], _ =>
      simp only [minAcked]
      exact ⟨t, rfl, h, hr, Stays.refl t⟩
    | x :: y :: r, h1 => simp only [List.length_cons] at h1; omega
    | [u], _ =>
      have hu : u ∈ t.ups := by rw [hl]; exact List.mem_singleton.2 rfl
      have hne := h.nodes hu
      simp only [minAcked, List.getElem?_cons_zero]
      obtain ⟨n, u1, e, hu1⟩ := upinv_autoAck (h.ctx hne) (h.ups u hu) (hr hne) left allowed
      rw [e]
      dsimp only
      have h1 : Inv false { t with ups := [u].set 0 u1 } ps S v := by
        refine inv_ups h _ (fun _ => by simp) (fun hc => absurd hc hne) ?_
        intro w hw
        simp only [List.set_cons_zero, List.mem_singleton] at hw
        rw [hw]; exact hu1
      by_cases hn : n = 0
      · rw [if_pos hn]
        exact ⟨_, rfl, h1, hr, rfl, rfl, rfl, rfl⟩
      · rw [if_neg hn]
        have e2 : freeMin { t with ups := [u].set 0 u1 } = freeBufs { t with ups := [u].set 0 u1 } u1.reader := by
          unfold freeMin
          simp [minAcked]
        rw [e2]
        obtain ⟨h2, hne2, htop, htot, he⟩ := inv_free (u := u1) h1 (by simp) (by
          intro w hw
          simp only [List.set_cons_zero, List.mem_singleton] at hw
          rw [hw]; exact Nat.le_refl _)
        obtain ⟨t', e', h', hr', hst⟩ := inv_watermark rest _ h2 (by
          intro _
          rw [htot]
          exact hr hne)
        refine ⟨t', e', h', hr', Stays.trans ?_ hst⟩
        rw [he]
        exact ⟨rfl, rfl, rfl, rfl⟩

/-! ## Sending -/

theorem sendEach_spec {calm : Bool} {t : Track} {ps : List Packet} {S : List UInt8} {v : Nat} (hx : Ctx calm t ps S v)
    (hv : v = S.length) (hn : t.nodes ≠ []) (hr : S.length < total t) (allowed : Bool) : ∀ (us : List Up) (ios : List (Option Io)),
    (∀ u ∈ us, UpInv calm t ps v u) →
    sendEach t allowed us ios = .err ∨
    ∃ us', sendEach t allowed us ios = .ok us' ∧ us'.length = us.length ∧ ∀ u ∈ us', UpInv calm t ps v u
  | [], _, _ => Or.inr ⟨[], by unfold sendEach; rfl, rfl, (fun _ h => nomatch h)⟩
  | u :: us, [], h => Or.inr ⟨u :: us, by unfold sendEach; rfl, rfl, h⟩
  | u :: us, io :: ios, h => by
    unfold sendEach
    have h1 : sendOne t allowed u io = .err ∨
        ∃ u', sendOne t allowed u io = .ok u' ∧ UpInv calm t ps v u' := by
      cases io with
      | none => exact Or.inr ⟨u, rfl, h u List.mem_cons_self⟩
      | some i => exact upinv_send hx (h u List.mem_cons_self) hv hn hr i allowed
    rcases h1 with e1 | ⟨u', e1, hu'⟩
    · left; rw [e1]
    · rw [e1]
      dsimp only
      rcases sendEach_spec hx hv hn hr allowed us ios (fun w hw => h w (List.mem_cons_of_mem _ hw)) with e2 | ⟨us', e2, hl, hus⟩
      · left; rw [e2]
      · right
        rw [e2]
        refine ⟨u' :: us', rfl, by simp [hl], fun w hw => ?_⟩
        rcases List.mem_cons.1 hw with hw | hw
        · rw [hw]; exact hu'
        · exact hus w hw

theorem inv_sendAll {calm : Bool} {t : Track} {ps : List Packet} {S : List UInt8} {v : Nat} (h : Inv calm t ps S v)
    (hr : Room t S) (allowed : Bool) (ios : List (Option Io)) :
    sendAll t allowed ios = .err ∨
    ∃ t', sendAll t allowed ios = .ok t' ∧ Inv calm t' ps S v ∧ Room t' S ∧ Stays t t' ∧ t'.base = t.base ∧ t'.nodes = t.nodes ∧
      t'.written = t.written := by
  unfold sendAll
  by_cases hbt : t.blocked = true
  · right
    rw [if_pos hbt]
    exact ⟨t, rfl, h, hr, Stays.refl t, rfl, rfl, rfl⟩
  · have hb : t.blocked = false := by simpa using hbt
    rw [if_neg hbt]
    by_cases hn : t.nodes = []
    · have hu := h.none hn
      right
      rw [hu]
      unfold sendEach
      refine ⟨_, rfl, inv_ups h [] (fun _ => by simp) (fun _ => rfl) (fun _ hc => nomatch hc), hr, ⟨rfl, rfl, rfl, rfl⟩, rfl, rfl, rfl⟩
    · rcases sendEach_spec (h.ctx hn) (h.seen hb) hn (hr hn) allowed t.ups ios h.ups with e | ⟨us, e, hl, hus⟩
      · left; rw [e]
      · right
        rw [e]
        refine ⟨_, rfl, inv_ups h us (fun hc => by rw [hl]; exact h.one hc) (fun hc => absurd hc hn) hus, hr, ⟨rfl, rfl, rfl, rfl⟩, rfl, rfl, rfl⟩

theorem inv_writeChain {calm : Bool} {t : Track} {ps : List Packet} {S : List UInt8} {v : Nat} (h : Inv calm t ps S v)
    (hr : Room t S) (e : Env) (hw : calm = true → e.wm = []) (bufs : List (List UInt8)) (hf : Fit t ps S bufs.flatten) :
    writeChain t e bufs = .err ∨
    ∃ t', writeChain t e bufs = .ok t' ∧ Inv calm t' ps (S ++ bufs.flatten) (visible t (S ++ bufs.flatten) v) ∧
      Room t' (S ++ bufs.flatten) ∧ Stays t t' := by
  unfold writeChain
  have h1 : ∃ t1, watermark t e.wm = .ok t1 ∧ Inv calm t1 ps S v ∧ Room t1 S ∧ Stays t t1 := by
    cases calm
    · exact inv_watermark e.wm t h hr
    · rw [hw rfl]; exact ⟨t, rfl, h, hr, Stays.refl t⟩
  obtain ⟨t1, e1, h1, hr1, hs1⟩ := h1
  rw [e1]
  dsimp only
  obtain ⟨t2, e2, h2, hr2, hs2⟩ := inv_writeBufs bufs t1 S v h1 hr1 (by intro hb; rw [hs1.1] at hb; exact hf hb)
  rw [e2]
  dsimp only
  have hvis : visible t1 (S ++ bufs.flatten) v = visible t (S ++ bufs.flatten) v := by unfold visible; rw [hs1.1]
  rw [hvis] at h2
  rcases inv_sendAll h2 hr2 e.allowed e.ios with e3 | ⟨t3, e3, h3, hr3, hs3, _, _, _⟩
  · left; exact e3
  · right; exact ⟨t3, e3, h3, hr3, (hs1.trans hs2).trans hs3⟩

/-- The bytes of the calls. -/
def written (calls : List (Env × List (List UInt8))) : List UInt8 := calls.flatMap (fun c => c.2.flatten)

theorem inv_writeAll {calm : Bool} {ps : List Packet} : ∀ (calls : List (Env × List (List UInt8))) (t : Track) (S : List UInt8) (v : Nat),
    Inv calm t ps S v → Room t S → (calm = true → ∀ c ∈ calls, c.1.wm = []) → Fit t ps S (written calls) →
    writeAll t calls = .err ∨
    ∃ t', writeAll t calls = .ok t' ∧ Inv calm t' ps (S ++ written calls) (visible t (S ++ written calls) v) ∧
      Room t' (S ++ written calls) ∧ Stays t t'
  | [], t, S, v, h, hr, _, _ => by
    right
    refine ⟨t, rfl, ?_, ?_, Stays.refl t⟩
    · simp only [written, List.flatMap_nil, List.append_nil]
      rw [visible_same h]; exact h
    · simpa [written] using hr
  | c :: cs, t, S, v, h, hr, hw, hf => by
    have hcat : written (c :: cs) = c.2.flatten ++ written cs := by unfold written; rw [List.flatMap_cons]
    rw [hcat] at hf ⊢
    unfold writeAll
    rcases inv_writeChain h hr c.1 (fun hc => hw hc c List.mem_cons_self) c.2 hf.head with e1 | ⟨t1, e1, h1, hr1, hs1⟩
    · left; rw [e1]
    · rw [e1]
      dsimp only
      rcases inv_writeAll cs t1 _ _ h1 hr1 (fun hc x hx => hw hc x (List.mem_cons_of_mem _ hx))
        (by intro hb; rw [hs1.1] at hb; exact hf.tail hb) with e2 | ⟨t2, e2, h2, hr2, hs2⟩
      · left; exact e2
      · right
        rw [visible_visible _ _ _ _ _ hs1.1, List.append_assoc] at h2
        rw [List.append_assoc] at hr2
        exact ⟨t2, e2, h2, hr2, hs1.trans hs2⟩

end Verif.KmpOut
