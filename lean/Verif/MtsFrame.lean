import Verif.MtsLay

/-! # The calls for one frame, with frames aligned -/

namespace Verif.Mts

/-- The calls for one frame. -/
structure Atom where
  f : OFrame
  ws : List (List UInt8)
  last : Bool

def Atom.calls (a : Atom) : List Call := [.start a.f] ++ a.ws.map .write ++ [.flush a.last]

/-- Nothing is written when the packet is full; `n` is what was written, with the headers. -/
def Fine : Nat → List (List UInt8) → Prop
  | _, [] => True
  | n, w :: ws => (w ≠ [] ∨ n < 188) ∧ Fine (n + w.length) ws

theorem Fine.of_ne (n : Nat) (ws : List (List UInt8)) (h : ∀ w ∈ ws, w ≠ []) : Fine n ws := by
  induction ws generalizing n with
  | nil => trivial
  | cons w ws ih => exact ⟨Or.inl (h w (by simp)), ih _ fun x hx => h x (by simp [hx])⟩

/-- Between frames. -/
structure Enc.Closed (e : Enc) : Prop where
  pos : e.pos = 188
  pes : e.pesBytes = 0

/-- The first packet of a frame before anything is written. -/
def Enc.p0 (e : Enc) (f : OFrame) : List UInt8 := e.info.pushPes f true (packetHeader e.info.pid e.cc)

theorem writePts_length (a b : Nat) : (writePts a b).length = 5 := rfl
theorem writePcr_length (a : Nat) : (writePcr a).length = 6 := rfl

theorem pesHeader_length (i : Info) (f : OFrame) (a : Bool) : (i.pesHeader f a).length = i.pesSize := by
  unfold Info.pesHeader Info.pesSize
  have h : (if i.media = .video then writePts 1 (f.dts + 9090) else []).length = if i.media = .video then 5 else 0 := by split <;> rfl
  split <;> simp only [List.length_append, writePts_length, writePcr_length, h, List.length_cons, List.length_nil] <;> omega

theorem p0_length (e : Enc) (f : OFrame) : (e.p0 f).length = 4 + e.info.pesSize := by
  unfold Enc.p0 Info.pushPes
  rw [List.length_append, List.length_append, pesHeader_length]
  split <;> simp [packetHeader]

theorem pesSize_lt (i : Info) : 0 < i.pesSize ∧ i.pesSize ≤ 27 := by
  unfold Info.pesSize; split <;> split <;> omega

theorem set_self {α : Type} (l : List α) (i : Nat) (x : α) (h : l[i]? = some x) : l.set i x = l := by
  apply List.ext_getElem?
  intro j
  rw [List.getElem?_set]
  split
  · rename_i hij; subst hij
    split
    · exact h.symm
    · rename_i hlt; rw [List.getElem?_eq_none (by omega)] at h; cases h
  · rfl

theorem stuff_closed (o : Out) (e : Enc) (h : e.Closed) : o.stuff e = (o, e) := by
  have h1 := h.pos
  have h2 := h.pes
  cases e
  simp only at h1 h2
  subst h1 h2
  simp [Out.stuff]

theorem closeLast_closed (o : Out) (i : Nat) (h : ∀ e ∈ o.encs, e.Closed) : o.closeLast i = o := by
  unfold Out.closeLast
  split
  · rfl
  · split
    · rfl
    · split
      · rfl
      · rename_i e he
        rw [stuff_closed o e (h e (List.mem_of_getElem? he))]
        simp only
        rw [set_self _ _ _ he]

/-- The state in a frame. -/
structure Mid (o : Out) (e0 : Enc) (f : OFrame) (o' : Out) (e' : Enc) (d : List UInt8) : Prop where
  at_ : At o' e' (o.packets ++ initOf (lay e0.info.pid (e0.cc + 1) (e0.p0 f) d)) (lastOf (lay e0.info.pid (e0.cc + 1) (e0.p0 f) d))
  info : e'.info = e0.info
  sizeAt : e'.sizeAt = (o.packets.length, e0.info.sizeAt)
  pes : e'.pesBytes = d.length
  cc : e'.cc = e0.cc + (lay e0.info.pid (e0.cc + 1) (e0.p0 f) d).length

theorem start_mid (i : Nat) (o : Out) (e : Enc) (f : OFrame) (h : e.Closed) :
    ∃ o' e', o.start i e f = (o', e') ∧ Mid o e f o' e' [] ∧ o'.last = some i ∧ o'.encs = o.encs := by
  have hpos := h.pos
  have hlt := pesSize_lt e.info
  have hlay : lay e.info.pid (e.cc + 1) (e.p0 f) [] = [e.p0 f] := lay_nil _ _ (by rw [p0_length]; omega)
  unfold Out.start
  simp only [hpos, Nat.le_refl, if_true, Out.initPacket]
  refine ⟨_, _, rfl, ⟨⟨?_, ?_, ?_⟩, rfl, rfl, ?_, ?_⟩, rfl, rfl⟩
  · rw [hlay]
    show (o.packets ++ [_]).modify o.packets.length _ = _
    rw [modify_last]
    simp [initOf, lastOf, Enc.p0]
  · rw [hlay]; simp [initOf]
  · rw [hlay]; show 4 + e.info.pesSize = _; rw [show lastOf [e.p0 f] = e.p0 f from rfl, p0_length]
  · exact h.pes
  · rw [hlay]; rfl

theorem lastOf_append (a : List (List UInt8)) {b : List (List UInt8)} (h : b ≠ []) : lastOf (a ++ b) = lastOf b := by
  simp only [lastOf, List.getLastD_eq_getLast?]
  rw [List.getLast?_append, List.getLast?_eq_some_getLast h]; rfl

theorem write_mid (i : Nat) (o : Out) (e0 : Enc) (f : OFrame) (o1 : Out) (e1 : Enc) (d b : List UInt8) (h : Mid o e0 f o1 e1 d)
    (hl : o1.last = some i) (hb : b ≠ [] ∨ (e0.p0 f).length + d.length < 188) :
    ∃ o2 e2, o1.write i e1 b = (o2, e2) ∧ Mid o e0 f o2 e2 (d ++ b) ∧ o2.last = some i ∧ o2.encs = o1.encs := by
  have hlt := pesSize_lt e0.info
  have hp0 : (e0.p0 f).length ≤ 188 := by rw [p0_length]; omega
  have hL := lay_ne e0.info.pid (e0.cc + 1) (e0.p0 f) d
  have hlen : 0 < (lay e0.info.pid (e0.cc + 1) (e0.p0 f) d).length := List.length_pos_iff.mpr hL
  have hcc : e1.cc = e0.cc + 1 + ((lay e0.info.pid (e0.cc + 1) (e0.p0 f) d).length - 1) := by rw [h.cc]; omega
  obtain ⟨o2, e2, h1, h2, h3, h4, h5, h6⟩ := write_lay i o1 e1 _ _ b h.at_ (lastOf_length _ _ _ _ hp0)
    (by
      rcases hb with hb | hb
      · exact Or.inl hb
      · right
        rw [lay_fits (by omega)]
        simpa [lastOf] using hb) hl
  refine ⟨o2, e2, h1, ?_, h6, h5⟩
  rw [h.info, hcc] at h2 h3
  have happ := lay_append e0.info.pid (e0.cc + 1) (e0.p0 f) d b hp0
  have hM := lay_ne e0.info.pid (e0.cc + 1 + ((lay e0.info.pid (e0.cc + 1) (e0.p0 f) d).length - 1))
    (lastOf (lay e0.info.pid (e0.cc + 1) (e0.p0 f) d)) b
  have hinit : initOf (lay e0.info.pid (e0.cc + 1) (e0.p0 f) (d ++ b)) = initOf (lay e0.info.pid (e0.cc + 1) (e0.p0 f) d) ++
      initOf (lay e0.info.pid (e0.cc + 1 + ((lay e0.info.pid (e0.cc + 1) (e0.p0 f) d).length - 1))
        (lastOf (lay e0.info.pid (e0.cc + 1) (e0.p0 f) d)) b) := by
    rw [happ]; simp only [initOf]; rw [List.dropLast_append_of_ne_nil hM]
  have hlast : lastOf (lay e0.info.pid (e0.cc + 1) (e0.p0 f) (d ++ b)) =
      lastOf (lay e0.info.pid (e0.cc + 1 + ((lay e0.info.pid (e0.cc + 1) (e0.p0 f) d).length - 1))
        (lastOf (lay e0.info.pid (e0.cc + 1) (e0.p0 f) d)) b) := by
    rw [happ, lastOf_append _ hM]
  refine ⟨?_, h3.info.trans h.info, h3.sizeAt.trans h.sizeAt, by rw [h4, h.pes, List.length_append], ?_⟩
  · rw [hinit, hlast, ← List.append_assoc]; exact h2
  · rw [h3.cc, hcc, happ, List.length_append, initOf_length]
    have := List.length_pos_iff.mpr hM
    omega

theorem lt_of_get {α : Type} {l : List α} {i : Nat} {x : α} (h : l[i]? = some x) : i < l.length := by
  rcases Nat.lt_or_ge i l.length with h1 | h1
  · exact h1
  · rw [List.getElem?_eq_none h1] at h; cases h

theorem call_write (align : Bool) (i : Nat) (o o' : Out) (e e' : Enc) (b : List UInt8) (h : o.encs[i]? = some e) (hw : o.write i e b = (o', e')) :
    Out.call align i o (.write b) = { o' with encs := o'.encs.set i e' } := by
  unfold Out.call
  simp only
  rw [h]
  simp only
  rw [hw]

theorem writes_mid (i : Nat) (align : Bool) (o : Out) (e0 : Enc) (f : OFrame) (ws : List (List UInt8)) (o1 : Out) (e1 : Enc) (d : List UInt8)
    (hi : o.encs[i]? = some e0)
    (h : Mid o e0 f o1 e1 d) (hs : o1.encs = o.encs.set i e1) (hl : o1.last = some i)
    (hw : Fine ((e0.p0 f).length + d.length) ws) :
    ∃ o2 e2, (ws.map Call.write).foldl (Out.call align i) o1 = o2 ∧ Mid o e0 f o2 e2 (d ++ ws.flatten) ∧
      o2.encs = o.encs.set i e2 ∧ o2.last = some i := by
  have hilt := lt_of_get hi
  induction ws generalizing o1 e1 d with
  | nil => exact ⟨o1, e1, rfl, by simpa using h, hs, hl⟩
  | cons w ws ih =>
    have hget : o1.encs[i]? = some e1 := by rw [hs, List.getElem?_set_self hilt]
    obtain ⟨o2, e2, h1, h2, h3, h4⟩ := write_mid i o e0 f o1 e1 d w h hl hw.1
    rw [List.map_cons, List.foldl_cons, call_write align i o1 o2 e1 e2 w hget h1]
    obtain ⟨o3, e3, g1, g2, g3, g4⟩ := ih { o2 with encs := o2.encs.set i e2 } e2 (d ++ w)
      ⟨⟨h2.at_.packets, h2.at_.cur, h2.at_.pos⟩, h2.info, h2.sizeAt, h2.pes, h2.cc⟩
      (by show o2.encs.set i e2 = _; rw [h4, hs, List.set_set]) h3
      (by rw [List.length_append, ← Nat.add_assoc]; exact hw.2)
    refine ⟨o3, e3, g1, ?_, g3, g4⟩
    rw [List.flatten_cons, ← List.append_assoc]
    exact g2

/-! ## The end of a frame -/

/-- Fill up the last packet. -/
def fillUp (p : List UInt8) : List UInt8 := if p.length < 188 then addStuffing p (188 - p.length) else p

/-- Packets without data. -/
def nullPackets (pid cc : Nat) : Nat → List (List UInt8)
  | 0 => []
  | n + 1 => ((packetHeader pid cc).modify 3 (· ||| 0x20) ++ nullRest) :: nullPackets pid (cc + 1) n

theorem nullPackets_length (pid cc n : Nat) : (nullPackets pid cc n).length = n := by
  induction n generalizing cc with
  | zero => rfl
  | succ n ih => simp [nullPackets, ih]

theorem nulls_eq (i n : Nat) (o : Out) (e : Enc) : ∃ o' e', Out.nulls i n o e = (o', e') ∧
    o'.packets = o.packets ++ nullPackets e.info.pid e.cc n ∧ e'.info = e.info ∧ e'.cc = e.cc + n ∧ e'.pesBytes = e.pesBytes ∧ o'.encs = o.encs := by
  induction n generalizing o e with
  | zero => exact ⟨o, e, rfl, by simp [nullPackets], rfl, rfl, rfl, rfl⟩
  | succ n ih =>
    rw [Out.nulls]
    obtain ⟨o', e', h1, h2, h3, h4, h5, h6⟩ :=
      ih ((o.initPacket i e).1.onPacket (o.initPacket i e).2.cur fun p => p.modify 3 (· ||| 0x20) ++ nullRest) (o.initPacket i e).2
    refine ⟨o', e', h1, ?_, h3, by rw [h4]; show e.cc + 1 + n = _; omega, h5, h6⟩
    rw [h2]
    show (o.packets ++ [_]).modify o.packets.length _ ++ _ = _
    rw [modify_last, List.append_assoc]
    rfl

/-- The length that is written for a PES packet. -/
def Info.pesLen (i : Info) (n : Nat) : Nat :=
  let k := 8 + n + (if i.media = .video then 5 else 0)
  if k > 0xffff then 0 else k

/-- The packets with the data of a frame. -/
def Enc.packets (e : Enc) (f : OFrame) (d : List UInt8) : List (List UInt8) :=
  let l := lay e.info.pid (e.cc + 1) (setSize (e.p0 f) e.info.sizeAt (e.info.pesLen d.length)) d
  initOf l ++ [fillUp (lastOf l)]

/-- The number of packets without data after it. -/
def Enc.nullCount (e : Enc) (cc : Nat) (last : Bool) : Nat := if last = true ∧ e.info.media ≠ .id3 then (16 - cc % 16) % 16 else 0

/-- All packets of a frame. -/
def Enc.wrote (e : Enc) (a : Atom) : List (List UInt8) :=
  let ps := e.packets a.f a.ws.flatten
  ps ++ nullPackets e.info.pid (e.cc + ps.length) (e.nullCount (e.cc + ps.length) a.last)

theorem setSize_length (p : List UInt8) (k n : Nat) : (setSize p k n).length = p.length := by simp [setSize]

theorem setSize_append (p x : List UInt8) (k n : Nat) (h : k + 1 < p.length) : setSize (p ++ x) k n = setSize p k n ++ x := by
  unfold setSize
  rw [List.set_append_left _ _ (by omega), List.set_append_left _ _ (by simpa using h)]

theorem sizeAt_lt (e : Enc) (f : OFrame) : e.info.sizeAt + 1 < (e.p0 f).length := by
  rw [p0_length]; unfold Info.sizeAt Info.pesSize; split <;> split <;> omega

theorem onPacket_packets (o : Out) (k : Nat) (f : List UInt8 → List UInt8) : (o.onPacket k f).packets = o.packets.modify k f := rfl

theorem lens_eq (pid cc : Nat) (p p' t : List UInt8) (h : p.length = p'.length) :
    (lay pid cc p t).length = (lay pid cc p' t).length ∧ (lastOf (lay pid cc p t)).length = (lastOf (lay pid cc p' t)).length := by
  obtain ⟨x, r, k1, k2⟩ := lay_change pid cc p p' t h
  rw [k1, k2]
  refine ⟨rfl, ?_⟩
  by_cases hr : r = []
  · subst hr; simp [lastOf, h]
  · rw [lastOf_cons _ hr, lastOf_cons _ hr]

/-- The last packet is filled up. -/
theorem stuff_last (o : Out) (e : Enc) (q : List (List UInt8)) (p : List UInt8) (h : At o e q p) (hp : e.pesBytes = 0) :
    ∃ o', o.stuff e = (o', { e with pos := 188 }) ∧ o'.packets = q ++ [fillUp p] ∧ o'.encs = o.encs := by
  have hn : ¬ (e.pesBytes ≠ 0 ∧ e.info.media ≠ .video) := by simp [hp]
  refine ⟨if e.pos < 188 then o.onPacket e.cur (addStuffing · (188 - e.pos)) else o, ?_, ?_, ?_⟩
  · simp only [Out.stuff, if_neg hn]
  · rw [fillUp, h.pos]
    split
    · exact h.onPacket _
    · exact h.packets
  · split <;> rfl

theorem flush_eq (i : Nat) (o : Out) (e : Enc) (last : Bool) :
    o.flush true i e last =
      (let s := (o.onPacket e.sizeAt.1 (setSize · e.sizeAt.2 (e.info.pesLen e.pesBytes))).stuff { e with pesBytes := 0 }
       if last = true ∧ s.2.info.media ≠ .id3 then
         ((Out.nulls i ((16 - s.2.cc % 16) % 16) s.1 s.2).1, { (Out.nulls i ((16 - s.2.cc % 16) % 16) s.1 s.2).2 with pos := 188 })
       else s) := by
  have h : ¬ (e.info.media = Media.video ∧ true = false) := by simp
  simp only [Out.flush, if_neg h, Bool.true_or, Bool.not_true, Bool.false_eq_true, if_false, if_true]
  rfl

theorem flush_mid (i : Nat) (o : Out) (e : Enc) (f : OFrame) (o1 : Out) (e1 : Enc) (d : List UInt8) (last : Bool) (h : Mid o e f o1 e1 d) :
    ∃ o' e', o1.flush true i e1 last = (o', e') ∧ o'.packets = o.packets ++ e.wrote ⟨f, [d], last⟩ ∧ o'.encs = o1.encs ∧
      e'.Closed ∧ e'.info = e.info ∧ e'.cc = e.cc + (e.wrote ⟨f, [d], last⟩).length := by
  have hl := lens_eq e.info.pid (e.cc + 1) (e.p0 f) (setSize (e.p0 f) e.info.sizeAt (e.info.pesLen d.length)) d (setSize_length _ _ _).symm
  have hL := lay_ne e.info.pid (e.cc + 1) (e.p0 f) d
  have hM := lay_ne e.info.pid (e.cc + 1) (setSize (e.p0 f) e.info.sizeAt (e.info.pesLen d.length)) d
  have hat : At (o1.onPacket e1.sizeAt.1 (setSize · e1.sizeAt.2 (e1.info.pesLen e1.pesBytes))) { e1 with pesBytes := 0 }
      (o.packets ++ initOf (lay e.info.pid (e.cc + 1) (setSize (e.p0 f) e.info.sizeAt (e.info.pesLen d.length)) d))
      (lastOf (lay e.info.pid (e.cc + 1) (setSize (e.p0 f) e.info.sizeAt (e.info.pesLen d.length)) d)) := by
    refine ⟨?_, ?_, ?_⟩
    · have hp := h.at_.packets
      rw [List.append_assoc, ← split_last hL] at hp
      rw [List.append_assoc, ← split_last hM, onPacket_packets, hp, h.sizeAt, h.info, h.pes]
      obtain ⟨x, r, k1, k2⟩ := lay_change e.info.pid (e.cc + 1) (e.p0 f) (setSize (e.p0 f) e.info.sizeAt (e.info.pesLen d.length)) d
        (setSize_length _ _ _).symm
      rw [k1, k2, modify_mid, setSize_append _ _ _ _ (sizeAt_lt e f)]
    · show e1.cur = _
      rw [h.at_.cur, List.length_append, List.length_append, initOf_length, initOf_length, hl.1]
    · show e1.pos = _
      rw [h.at_.pos, hl.2]
  obtain ⟨o2, s1, s2, s3⟩ := stuff_last _ _ _ _ hat rfl
  have hps : e.packets f d = initOf (lay e.info.pid (e.cc + 1) (setSize (e.p0 f) e.info.sizeAt (e.info.pesLen d.length)) d) ++
      [fillUp (lastOf (lay e.info.pid (e.cc + 1) (setSize (e.p0 f) e.info.sizeAt (e.info.pesLen d.length)) d))] := rfl
  have hcc : e1.cc = e.cc + (e.packets f d).length := by
    have := List.length_pos_iff.mpr hM
    rw [h.cc, hl.1, hps, List.length_append, initOf_length, List.length_singleton]; omega
  rw [List.append_assoc, ← hps] at s2
  have hd : (⟨f, [d], last⟩ : Atom).ws.flatten = d := by simp
  have hinfo : e1.info = e.info := h.info
  have he : ({ ({ e1 with pesBytes := 0 } : Enc) with pos := 188 } : Enc) =
      { e1 with pesBytes := 0, pos := 188, info := e.info, cc := e.cc + (e.packets f d).length } := by rw [← hinfo, ← hcc]
  rw [flush_eq, s1, he]
  simp only
  unfold Enc.wrote
  simp only [hd]
  by_cases hlast : last = true ∧ e.info.media ≠ .id3
  · rw [if_pos hlast]
    have hnc : e.nullCount (e.cc + (e.packets f d).length) last = (16 - (e.cc + (e.packets f d).length) % 16) % 16 := if_pos hlast
    rw [hnc]
    obtain ⟨o5, e5, n1, n2, n3, n4, n5, n6⟩ := nulls_eq i ((16 - (e.cc + (e.packets f d).length) % 16) % 16) o2
      { e1 with pesBytes := 0, pos := 188, info := e.info, cc := e.cc + (e.packets f d).length }
    rw [n1]
    refine ⟨_, _, rfl, ?_, n6.trans s3, ⟨rfl, n5⟩, n3, ?_⟩
    · rw [n2, s2, List.append_assoc]
    · rw [List.length_append, nullPackets_length]
      show e5.cc = _
      rw [n4]
      show e.cc + _ + _ = _
      omega
  · rw [if_neg hlast]
    have hnc : e.nullCount (e.cc + (e.packets f d).length) last = 0 := if_neg hlast
    rw [hnc]
    refine ⟨_, _, rfl, ?_, s3, ⟨rfl, rfl⟩, rfl, ?_⟩
    · simp [nullPackets, s2]
    · simp [nullPackets]

theorem wrote_join (e : Enc) (a : Atom) : e.wrote ⟨a.f, [a.ws.flatten], a.last⟩ = e.wrote a := by
  unfold Enc.wrote; simp

/-- The calls for a frame append its packets. -/
theorem frame_packets (i : Nat) (o : Out) (e : Enc) (a : Atom) (hi : o.encs[i]? = some e) (hc : ∀ e ∈ o.encs, e.Closed)
    (hw : Fine (4 + e.info.pesSize) a.ws) :
    ∃ e', (a.calls.foldl (Out.call true i) o).packets = o.packets ++ e.wrote a ∧
      (a.calls.foldl (Out.call true i) o).encs = o.encs.set i e' ∧ e'.Closed ∧ e'.info = e.info ∧ e'.cc = e.cc + (e.wrote a).length := by
  have hilt := lt_of_get hi
  rw [Atom.calls, List.append_assoc, List.foldl_append, List.foldl_append]
  obtain ⟨o1, e1, h1, h2, h3, h4⟩ := start_mid i o e a.f (hc e (List.mem_of_getElem? hi))
  have hs1 : [Call.start a.f].foldl (Out.call true i) o = { o1 with encs := o1.encs.set i e1 } := by
    rw [List.foldl_cons, List.foldl_nil]
    unfold Out.call
    simp only
    rw [closeLast_closed o i hc, hi]
    simp only
    rw [h1]
  rw [hs1]
  obtain ⟨o2, e2, g1, g2, g3, g4⟩ := writes_mid i true o e a.f a.ws { o1 with encs := o1.encs.set i e1 } e1 [] hi
    ⟨⟨h2.at_.packets, h2.at_.cur, h2.at_.pos⟩, h2.info, h2.sizeAt, h2.pes, h2.cc⟩ (by rw [← h4]) h3 (by simpa [p0_length] using hw)
  rw [g1]
  rw [List.nil_append] at g2
  have hget : o2.encs[i]? = some e2 := by rw [g3, List.getElem?_set_self hilt]
  obtain ⟨o3, e3, k1, k2, k3, k4, k5, k6⟩ := flush_mid i o e a.f o2 e2 a.ws.flatten a.last g2
  rw [wrote_join] at k2 k6
  have hs3 : [Call.flush a.last].foldl (Out.call true i) o2 = { o3 with encs := o3.encs.set i e3 } := by
    rw [List.foldl_cons, List.foldl_nil]
    unfold Out.call
    simp only
    rw [hget]
    simp only
    rw [k1]
  rw [hs3]
  refine ⟨e3, k2, ?_, k4, k5, k6⟩
  show o3.encs.set i e3 = _
  rw [k3, g3, List.set_set]

end Verif.Mts
