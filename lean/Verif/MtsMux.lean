import Verif.MtsSim

/-! # The muxer, with frames aligned -/

namespace Verif.Mts

open MtsSpec (pidOf ofPid)

/-! ## The packets of a pid -/

theorem pidOf_bytes (q : TsSpec.Packet) (h : q.Ok) : pidOf q.bytes = q.pid := by
  have hp := h.pid
  unfold pidOf TsSpec.Packet.bytes
  simp only [List.cons_append, List.nil_append, List.getD_cons_succ, List.getD_cons_zero, UInt8.toNat_ofNat']
  cases q.start <;> cases q.prio <;> simp <;> omega

theorem pidOf_filler (pid cc : Nat) (h : pid < 8192) : pidOf (MtsSpec.filler pid cc) = pid := by
  unfold pidOf MtsSpec.filler
  simp only [List.cons_append, List.nil_append, List.getD_cons_succ, List.getD_cons_zero, UInt8.toNat_ofNat']
  omega

theorem filler_length (pid cc : Nat) : (MtsSpec.filler pid cc).length = 188 := by
  unfold MtsSpec.filler
  rw [List.length_append, List.length_replicate]; rfl

theorem wrote_of (i : Info) (h : i.Ok) (cc : Nat) (a : Atom) : ∀ p ∈ (encAt i cc).wrote a, pidOf p = i.pid ∧ p.length = 188 := by
  intro p hp
  rw [Enc.wrote, List.mem_append] at hp
  rcases hp with hp | hp
  · obtain ⟨qs, h1, h2, -⟩ := packets_carry (encAt i cc) a.f a.ws.flatten h
    rw [h1] at hp
    obtain ⟨q, hq, rfl⟩ := List.mem_map.mp hp
    exact ⟨(pidOf_bytes q (h2 q hq).1).trans (h2 q hq).2, (h2 q hq).1.size⟩
  · rw [nullPackets_filler] at hp
    obtain ⟨k, -, rfl⟩ := List.mem_map.mp hp
    exact ⟨pidOf_filler _ _ h.pid, filler_length _ _⟩

theorem wroteAll_of (i : Info) (h : i.Ok) (cc : Nat) (as : List Atom) : ∀ p ∈ wroteAll i cc as, pidOf p = i.pid ∧ p.length = 188 := by
  induction as generalizing cc with
  | nil => simp [wroteAll]
  | cons a as ih =>
    intro p hp
    rw [wroteAll, List.mem_append] at hp
    rcases hp with hp | hp
    · exact wrote_of i h cc a p hp
    · exact ih _ p hp

theorem ofPid_append (pid : Nat) (a b : List (List UInt8)) : ofPid pid (a ++ b) = ofPid pid a ++ ofPid pid b := by simp [ofPid]

theorem ofPid_all (pid : Nat) (a : List (List UInt8)) (h : ∀ p ∈ a, pidOf p = pid) : ofPid pid a = a := by
  unfold ofPid
  rw [List.filter_eq_self]
  intro p hp; simpa using h p hp

theorem ofPid_none (pid x : Nat) (a : List (List UInt8)) (h : ∀ p ∈ a, pidOf p = x) (hx : x ≠ pid) : ofPid pid a = [] := by
  unfold ofPid
  rw [List.filter_eq_nil_iff]
  intro p hp; rw [h p hp]; simpa using hx

/-! ## The invariant -/

/-- The frames from a time on became these chunks. -/
def Matches (k : Kind) : Nat → List InFrame → List Chunk → Prop
  | _, [], [] => True
  | t, f :: fs, c :: cs => ChunkOk k t f c ∧ Matches k (t + f.duration) fs cs
  | _, _, _ => False

def InFrame.span (fs : List InFrame) : Nat := (fs.map InFrame.duration).sum

theorem Matches.snoc {k : Kind} {t : Nat} {fs : List InFrame} {cs : List Chunk} {f : InFrame} {c : Chunk} (h : Matches k t fs cs)
    (hc : ChunkOk k (t + InFrame.span fs) f c) : Matches k t (fs ++ [f]) (cs ++ [c]) := by
  induction fs generalizing t cs with
  | nil =>
    cases cs with
    | nil => exact ⟨hc, trivial⟩
    | cons _ _ => exact h.elim
  | cons x fs ih =>
    cases cs with
    | nil => exact h.elim
    | cons y cs =>
      refine ⟨h.1, ih h.2 ?_⟩
      have : t + x.duration + InFrame.span fs = t + InFrame.span (x :: fs) := by simp only [InFrame.span, List.map_cons, List.sum_cons]; omega
      rw [this]; exact hc

/-- What was written of the frames `fs` of a track when `g` is in the buffer. -/
structure Written (t : Track) (fs : List InFrame) (as : List Atom) (g : List Chunk) (ps : List (List UInt8)) (last : Bool) : Prop where
  chunks : ∃ cs g1, Matches t.kind t.time fs cs ∧ cs = g1 ++ g ∧ Groups t.kind.single as g1
  packets : ofPid t.pid ps = wroteAll t.info t.kind.cc as
  lasts : Lasts last as

/-- A stream. -/
structure SInv (t : Track) (s : Stream) (e : Enc) (ps : List (List UInt8)) (g : List Chunk) : Prop where
  written : ∃ fs as, t.frames = fs ++ s.frames ∧ s.time = t.time + InFrame.span fs ∧ Written t fs as g ps (s.frames.isEmpty && !fs.isEmpty)
  filt : FiltInv t.kind s.filt g
  info : e.info = t.info
  closed : e.Closed
  cc : e.cc = t.kind.cc + (ofPid t.pid ps).length
  done : s.frames = [] → g = []

/-- All of the streams; `gs` are what is in the buffers. -/
structure MInv (ts : List Track) (m : Mux) (gs : Nat → List Chunk) : Prop where
  streams : m.streams.length = ts.length
  encs : m.out.encs.length = ts.length
  each : ∀ i t, ts[i]? = some t → ∃ s e, m.streams[i]? = some s ∧ m.out.encs[i]? = some e ∧ SInv t s e m.out.packets (gs i)
  all : ∀ p ∈ m.out.packets, p.length = 188 ∧ ∃ t ∈ ts, pidOf p = t.pid

/-- What is asked of the tracks. -/
structure TracksOk (ts : List Track) : Prop where
  pids : (ts.map Track.pid).Nodup
  info : ∀ t ∈ ts, t.info.Ok
  kind : ∀ t ∈ ts, KindOk t.kind
  frames : ∀ t ∈ ts, ∀ f ∈ t.frames, FrameOk t.kind f

theorem TracksOk.inj {ts : List Track} (h : TracksOk ts) {i j : Nat} {t u : Track} (hi : ts[i]? = some t) (hj : ts[j]? = some u) (hp : t.pid = u.pid) : i = j := by
  have hi' := lt_of_get hi
  have hj' := lt_of_get hj
  have h1 : (ts.map Track.pid)[i]? = (ts.map Track.pid)[j]? := by simp [hi, hj, hp]
  exact (List.getElem?_inj (by simpa using hi') h.pids).mp h1

def upd (gs : Nat → List Chunk) (j : Nat) (g : List Chunk) : Nat → List Chunk := fun i => if i = j then g else gs i

theorem upd_self (gs : Nat → List Chunk) (j : Nat) (g : List Chunk) : upd gs j g j = g := if_pos rfl
theorem upd_ne (gs : Nat → List Chunk) {i j : Nat} (g : List Chunk) (h : i ≠ j) : upd gs j g i = gs i := if_neg h

theorem all_closed {ts : List Track} {m : Mux} {gs : Nat → List Chunk} (h : MInv ts m gs) : ∀ e ∈ m.out.encs, e.Closed := by
  intro e he
  obtain ⟨i, hi, rfl⟩ := List.mem_iff_getElem.mp he
  obtain ⟨s, e, -, h2, h3⟩ := h.each i (ts[i]'(by rw [← h.encs]; exact hi)) (by simp)
  rw [List.getElem?_eq_getElem hi] at h2
  rw [Option.some.inj h2]; exact h3.closed

/-- Atoms of stream `j` are written. -/
theorem emit (ts : List Track) (hts : TracksOk ts) (m : Mux) (gs : Nat → List Chunk) (h : MInv ts m gs) (j : Nat) (t : Track) (s : Stream) (e : Enc)
    (hj : ts[j]? = some t) (hs : m.streams[j]? = some s) (he : m.out.encs[j]? = some e) (as : List Atom) (hf : ∀ a ∈ as, ∀ n, n ≤ 31 → Fine n a.ws)
    (s' : Stream) (g' : List Chunk)
    (hS : ∀ e' ps', e'.info = t.info → e'.Closed → e'.cc = e.cc + (wroteAll t.info e.cc as).length →
      ofPid t.pid ps' = ofPid t.pid m.out.packets ++ wroteAll t.info e.cc as → SInv t s' e' ps' g') :
    MInv ts { streams := m.streams.set j s', out := m.out.calls true j (atomCalls as) } (upd gs j g') ∧
      (m.out.calls true j (atomCalls as)).packets = m.out.packets ++ wroteAll t.info e.cc as ∧
      ∃ e', (m.out.calls true j (atomCalls as)).encs = m.out.encs.set j e' ∧ e'.cc = e.cc + (wroteAll t.info e.cc as).length := by
  have hjs := lt_of_get hs
  have hje := lt_of_get he
  have hinfo : e.info = t.info := by
    obtain ⟨s0, e0, h1, h2, h3⟩ := h.each j t hj
    rw [he] at h2
    rw [Option.some.inj h2]; exact h3.info
  obtain ⟨e', p1, p2, p3, p4, p5⟩ := atoms_out j as m.out e he (all_closed h) hf
  rw [hinfo] at p1 p4 p5
  have hw := wroteAll_of t.info (hts.info t (List.mem_of_getElem? hj)) e.cc as
  refine ⟨⟨by simp [h.streams], by show (m.out.calls true j (atomCalls as)).encs.length = _; rw [p2]; simp [h.encs], ?_, ?_⟩, p1, e', p2, p5⟩
  · intro i u hu
    show ∃ s e, (m.streams.set j s')[i]? = some s ∧ (m.out.calls true j (atomCalls as)).encs[i]? = some e ∧ SInv u s e (m.out.calls true j (atomCalls as)).packets _
    by_cases hij : i = j
    · subst hij
      rw [hj] at hu
      obtain rfl := Option.some.inj hu
      rw [p2, p1, List.getElem?_set_self hjs, List.getElem?_set_self hje, upd_self]
      refine ⟨s', e', rfl, rfl, hS e' _ p4 p3 p5 ?_⟩
      rw [ofPid_append, ofPid_all t.pid (wroteAll t.info e.cc as) (fun p hp => (hw p hp).1)]
    · rw [p2, p1, List.getElem?_set_ne (fun h => hij h.symm), List.getElem?_set_ne (fun h => hij h.symm), upd_ne _ _ hij]
      obtain ⟨s0, e0, h1, h2, h3⟩ := h.each i u hu
      have hp : t.info.pid ≠ u.pid := fun hp => hij (hts.inj hu hj hp.symm)
      have hsame : ofPid u.pid (m.out.packets ++ wroteAll t.info e.cc as) = ofPid u.pid m.out.packets := by
        rw [ofPid_append, ofPid_none u.pid t.info.pid _ (fun p hp => (hw p hp).1) hp, List.append_nil]
      refine ⟨s0, e0, h1, h2, ⟨?_, h3.filt, h3.info, h3.closed, by rw [hsame]; exact h3.cc, h3.done⟩⟩
      obtain ⟨fs, as0, w1, w2, w3⟩ := h3.written
      exact ⟨fs, as0, w1, w2, ⟨w3.chunks, by rw [hsame]; exact w3.packets, w3.lasts⟩⟩
  · show ∀ p ∈ (m.out.calls true j (atomCalls as)).packets, _
    rw [p1]
    intro p hp
    rcases List.mem_append.mp hp with hp | hp
    · exact h.all p hp
    · exact ⟨(hw p hp).2, t, List.mem_of_getElem? hj, (hw p hp).1⟩

/-! ## The simulation beside it -/

def noFrame : OFrame := ⟨0, 0, false, 0, 0⟩

structure SimS (t : Track) (s : Stream) (e : Enc) (g : List Chunk) (ss : SStream) (se : SEnc) : Prop where
  frames : ss.frames = s.frames
  time : ss.time = s.time
  filt : SFiltInv t.kind ss.filt (flat g).length (firstOf g noFrame).dts
  info : se.info = t.info
  temp : se.temp = 0
  cc : s.frames ≠ [] → se.cc = e.cc

structure SimInv (ts : List Track) (m : Mux) (sm : SMux) (gs : Nat → List Chunk) : Prop where
  streams : sm.streams.length = ts.length
  encs : sm.out.encs.length = ts.length
  offset : sm.out.offset = 376 + 188 * m.out.packets.length
  each : ∀ i t s e, ts[i]? = some t → m.streams[i]? = some s → m.out.encs[i]? = some e →
    ∃ ss se, sm.streams[i]? = some ss ∧ sm.out.encs[i]? = some se ∧ SimS t s e (gs i) ss se

theorem all_flat {ts : List Track} {m : Mux} {sm : SMux} {gs : Nat → List Chunk} (hm : MInv ts m gs) (h : SimInv ts m sm gs) : ∀ e ∈ sm.out.encs, e.temp = 0 := by
  intro e he
  obtain ⟨i, hi, rfl⟩ := List.mem_iff_getElem.mp he
  have hi' : i < ts.length := by rw [← h.encs]; exact hi
  obtain ⟨s, e, h1, h2, -⟩ := hm.each i ts[i] (by simp [hi'])
  obtain ⟨ss, se, -, h4, h5⟩ := h.each i ts[i] s e (by simp [hi']) h1 h2
  rw [List.getElem?_eq_getElem hi] at h4
  rw [Option.some.inj h4]; exact h5.temp

theorem emit_sim (ts : List Track) (hts : TracksOk ts) (m : Mux) (gs : Nat → List Chunk) (h : MInv ts m gs) (sm : SMux) (hsim : SimInv ts m sm gs)
    (j : Nat) (t : Track) (s : Stream) (e : Enc)
    (hj : ts[j]? = some t) (hs : m.streams[j]? = some s) (he : m.out.encs[j]? = some e) (as : List Atom) (sas : List SAtom)
    (hshape : sas.map SAtom.shape = as.map Atom.shape) (s' : Stream) (g' : List Chunk) (ss' : SStream)
    (h1 : ss'.frames = s'.frames) (h2 : ss'.time = s'.time) (h3 : SFiltInv t.kind ss'.filt (flat g').length (firstOf g' noFrame).dts)
    (hlast : Lasts s'.frames.isEmpty as ∨ as = []) (hsf : s.frames ≠ [] ∨ (as = [] ∧ s'.frames = []))
    (m' : Mux) (hm1 : m'.streams = m.streams.set j s') (hm2 : m'.out.packets = m.out.packets ++ wroteAll t.info e.cc as)
    (e' : Enc) (hm3 : m'.out.encs = m.out.encs.set j e') (hm4 : e'.cc = e.cc + (wroteAll t.info e.cc as).length) :
    SimInv ts m' { streams := sm.streams.set j ss', out := sm.out.calls true j (satomCalls sas) } (upd gs j g') := by
  have hjs := lt_of_get hs
  have hje := lt_of_get he
  obtain ⟨ss, se, g1, g2, g3⟩ := hsim.each j t s e hj hs he
  have hlasts : ∀ a b : List Atom, as = a ++ b → b ≠ [] → ∀ x ∈ a, x.last = false := by
    intro a b hab hb x hx
    rcases hlast with hl | hl
    · cases hse : s'.frames.isEmpty with
      | false =>
        rw [hse] at hl
        exact hl x (by rw [hab]; simp [hx])
      | true =>
        rw [hse] at hl
        obtain ⟨i, y, hi, -, hi2⟩ := hl
        obtain ⟨b', z, rfl⟩ : ∃ b' z, b = b' ++ [z] := ⟨b.dropLast, b.getLast hb, (List.dropLast_concat_getLast hb).symm⟩
        rw [hab, ← List.append_assoc] at hi
        have := (List.append_inj' hi rfl).1
        exact hi2 x (by rw [← this]; simp [hx])
    · rw [hl] at hab
      have := (List.append_eq_nil_iff.mp hab.symm).2
      exact absurd this hb
  have hsl : ∀ x y : List SAtom, sas = x ++ y → y ≠ [] → ∀ a ∈ x, a.last = false := by
    intro x y hxy hy a ha
    rw [hxy, List.map_append] at hshape
    obtain ⟨as1, as2, has, e1, e2⟩ := List.map_eq_append_iff.mp hshape.symm
    have hne : as2 ≠ [] := by
      rintro rfl
      exact hy (List.map_eq_nil_iff.mp e2.symm)
    have ha' : a.shape ∈ as1.map Atom.shape := by rw [e1]; exact List.mem_map_of_mem ha
    obtain ⟨b, hb, hba⟩ := List.mem_map.mp ha'
    have := hlasts as1 as2 has hne b hb
    have h5 : a.last = b.last := by
      have := congrArg Prod.snd hba
      exact this.symm
    rw [h5]; exact this
  obtain ⟨se', p1, p2, p3, p4, p5⟩ := satoms_out j sas sm.out se g2 (all_flat h hsim) hsl
  have hlen : (wroteAll t.info e.cc as).length = countAll t.info e.cc (as.map Atom.shape) := wroteAll_length _ _ _ (hts.info t (List.mem_of_getElem? hj))
  have hcount : countAll se.info se.cc (sas.map SAtom.shape) = (wroteAll t.info e.cc as).length := by
    rw [hlen, hshape, g3.info]
    rcases hsf with hsf | hsf
    · rw [g3.cc hsf]
    · rw [hsf.1]; rfl
  rw [hcount] at p1 p5
  have hjss := lt_of_get g1
  have hjse := lt_of_get g2
  refine ⟨by simp [hsim.streams], by show (sm.out.calls true j (satomCalls sas)).encs.length = _; rw [p2]; simp [hsim.encs], ?_, ?_⟩
  · show (sm.out.calls true j (satomCalls sas)).offset = _
    rw [p1, hsim.offset, hm2, List.length_append]; omega
  · intro i u su eu hu hsu heu
    show ∃ ss se, (sm.streams.set j ss')[i]? = some ss ∧ (sm.out.calls true j (satomCalls sas)).encs[i]? = some se ∧ _
    rw [p2]
    rw [hm1] at hsu
    rw [hm3] at heu
    by_cases hij : i = j
    · subst hij
      rw [hj] at hu
      obtain rfl := Option.some.inj hu
      rw [List.getElem?_set_self hjs] at hsu
      rw [List.getElem?_set_self hje] at heu
      obtain rfl := Option.some.inj hsu
      obtain rfl := Option.some.inj heu
      rw [List.getElem?_set_self hjss, List.getElem?_set_self hjse, upd_self]
      refine ⟨ss', se', rfl, rfl, ⟨h1, h2, h3, p4.trans g3.info, p3, ?_⟩⟩
      intro hne
      rcases hsf with hsf | hsf
      · have hall : ∀ a ∈ sas, a.last = false := by
          intro a ha
          rcases hlast with hl | hl
          · rw [show s'.frames.isEmpty = false by cases hsf' : s'.frames with | nil => exact absurd hsf' hne | cons _ _ => rfl] at hl
            have ha' : a.shape ∈ as.map Atom.shape := by rw [← hshape]; exact List.mem_map_of_mem ha
            obtain ⟨b, hb, hba⟩ := List.mem_map.mp ha'
            have := congrArg Prod.snd hba
            exact this.symm.trans (hl b hb)
          · rw [hl] at hshape
            rw [List.map_eq_nil_iff.mp hshape] at ha
            exact absurd ha (by simp)
        rw [p5 hall, hm4, g3.cc hsf]
      · exact absurd hsf.2 hne
    · rw [List.getElem?_set_ne (fun h => hij h.symm)] at hsu heu
      rw [List.getElem?_set_ne (fun h => hij h.symm), List.getElem?_set_ne (fun h => hij h.symm), upd_ne _ _ hij]
      exact hsim.each i u su eu hu hsu heu

end Verif.Mts
