import Verif.MtsStream
import Verif.MtsPes

/-! # The simulation, with frames aligned -/

namespace Verif.Mts

/-! ## Packets of atoms -/

def encAt (i : Info) (cc : Nat) : Enc := { info := i, cc := cc }

theorem wrote_encAt (e : Enc) (a : Atom) : e.wrote a = (encAt e.info e.cc).wrote a := rfl

/-- The packets of atoms, from a counter on. -/
def wroteAll (i : Info) : Nat → List Atom → List (List UInt8)
  | _, [] => []
  | cc, a :: as => (encAt i cc).wrote a ++ wroteAll i (cc + ((encAt i cc).wrote a).length) as

theorem wroteAll_append (i : Info) (cc : Nat) (as bs : List Atom) :
    wroteAll i cc (as ++ bs) = wroteAll i cc as ++ wroteAll i (cc + (wroteAll i cc as).length) bs := by
  induction as generalizing cc with
  | nil => simp [wroteAll]
  | cons a as ih => simp only [List.cons_append, wroteAll, ih, List.append_assoc, List.length_append, Nat.add_assoc]

theorem out_calls_append (align : Bool) (i : Nat) (o : Out) (a b : List Call) : o.calls align i (a ++ b) = (o.calls align i a).calls align i b := by
  simp [Out.calls]

/-- The calls for atoms append their packets. -/
theorem atoms_out (i : Nat) (as : List Atom) (o : Out) (e : Enc) (hi : o.encs[i]? = some e) (hc : ∀ e ∈ o.encs, e.Closed)
    (hf : ∀ a ∈ as, ∀ n, n ≤ 31 → Fine n a.ws) :
    ∃ e', (o.calls true i (atomCalls as)).packets = o.packets ++ wroteAll e.info e.cc as ∧
      (o.calls true i (atomCalls as)).encs = o.encs.set i e' ∧ e'.Closed ∧ e'.info = e.info ∧ e'.cc = e.cc + (wroteAll e.info e.cc as).length := by
  induction as generalizing o e with
  | nil =>
    refine ⟨e, by simp [Out.calls, wroteAll], ?_, hc e (List.mem_of_getElem? hi), rfl, by simp [wroteAll]⟩
    show o.encs = _
    rw [set_self _ _ _ hi]
  | cons a as ih =>
    have h1 : atomCalls (a :: as) = a.calls ++ atomCalls as := by simp [atomCalls]
    rw [h1, out_calls_append]
    have hp := pesSize_lt e.info
    obtain ⟨e1, p1, p2, p3, p4, p5⟩ := frame_packets i o e a hi hc (hf a (by simp) _ (by omega))
    have hilt := lt_of_get hi
    have hc1 : ∀ x ∈ (o.calls true i a.calls).encs, x.Closed := by
      show ∀ x ∈ (a.calls.foldl (Out.call true i) o).encs, _
      rw [p2]
      intro x hx
      rcases List.mem_or_eq_of_mem_set hx with hx | hx
      · exact hc x hx
      · rw [hx]; exact p3
    obtain ⟨e2, q1, q2, q3, q4, q5⟩ := ih (o.calls true i a.calls) e1
      (by show (a.calls.foldl (Out.call true i) o).encs[i]? = _; rw [p2, List.getElem?_set_self hilt]) hc1 (fun x hx => hf x (by simp [hx]))
    refine ⟨e2, ?_, ?_, q3, q4.trans p4, ?_⟩
    · rw [q1]
      show (a.calls.foldl (Out.call true i) o).packets ++ _ = _
      rw [p1, p4, p5, wroteAll, List.append_assoc]; rfl
    · rw [q2]
      show (a.calls.foldl (Out.call true i) o).encs.set i e2 = _
      rw [p2, List.set_set]
    · rw [q5, p4, p5, wroteAll, List.length_append, wrote_encAt e a]; omega

/-- The number of packets of an atom. -/
def count (i : Info) (cc : Nat) (s : Nat × Bool) : Nat :=
  let n := (i.pesSize + s.1 + 183) / 184
  n + (if s.2 = true ∧ i.media ≠ .id3 then (16 - (cc + n) % 16) % 16 else 0)

theorem wrote_length (i : Info) (cc : Nat) (a : Atom) (h : i.Ok) : ((encAt i cc).wrote a).length = count i cc a.shape := by
  unfold Enc.wrote count Atom.shape
  have := packets_length (encAt i cc) a.f a.ws.flatten h
  simp only [List.length_append, nullPackets_length, Enc.nullCount, this]
  rfl

/-- The number of packets of atoms. -/
def countAll (i : Info) : Nat → List (Nat × Bool) → Nat
  | _, [] => 0
  | cc, s :: ss => count i cc s + countAll i (cc + count i cc s) ss

theorem wroteAll_length (i : Info) (cc : Nat) (as : List Atom) (h : i.Ok) : (wroteAll i cc as).length = countAll i cc (as.map Atom.shape) := by
  induction as generalizing cc with
  | nil => rfl
  | cons a as ih => rw [wroteAll, List.length_append, List.map_cons, countAll, wrote_length i cc a h, ih]

/-! ## The simulated encoder -/

/-- The calls for one frame. -/
structure SAtom where
  dts : Nat
  key : Bool
  header : Nat
  ns : List Nat
  last : Bool

def SAtom.calls (a : SAtom) : List SCall := [.start a.dts a.key a.header] ++ a.ns.map .write ++ [.flush a.last]

def SAtom.shape (a : SAtom) : Nat × Bool := (a.ns.sum, a.last)

def satomCalls (as : List SAtom) : List SCall := (as.map SAtom.calls).flatten

@[simp] theorem satomCalls_nil : satomCalls [] = [] := rfl
@[simp] theorem satomCalls_append (a b : List SAtom) : satomCalls (a ++ b) = satomCalls a ++ satomCalls b := by simp [satomCalls]
@[simp] theorem satomCalls_one (a : SAtom) : satomCalls [a] = a.calls := by simp [satomCalls]

theorem sclose (o : SOut) (i : Nat) (h : ∀ e ∈ o.encs, e.temp = 0) : o.closeLast i = o := by
  unfold SOut.closeLast
  split
  · rfl
  · split
    · rfl
    · split
      · rfl
      · rename_i e he
        rw [if_neg (by rw [h e (List.mem_of_getElem? he)]; omega)]

/-- In a frame of which `k` bytes, with the header, were written. -/
structure SMid (o : SOut) (i : Nat) (e : SEnc) (o' : SOut) (e' : SEnc) (k : Nat) : Prop where
  offset : o'.offset = o.offset + 188 * (k / 184)
  temp : e'.temp = k % 184
  cc : e'.cc = e.cc + k / 184
  info : e'.info = e.info
  initial : e'.initialCc = e.initialCc
  encs : o'.encs = o.encs.set i e'

theorem swrites (i : Nat) (o : SOut) (e : SEnc) (hi : o.encs[i]? = some e) (ns : List Nat) (o1 : SOut) (e1 : SEnc) (k : Nat) (h : SMid o i e o1 e1 k) :
    ∃ o2 e2, (ns.map SCall.write).foldl (SOut.call true i) o1 = o2 ∧ SMid o i e o2 e2 (k + ns.sum) := by
  have hilt := lt_of_get hi
  induction ns generalizing o1 e1 k with
  | nil => exact ⟨o1, e1, rfl, h⟩
  | cons n ns ih =>
    rw [List.map_cons, List.foldl_cons]
    have hget : o1.encs[i]? = some e1 := by rw [h.encs, List.getElem?_set_self hilt]
    have hstep : ∃ o2 e2, SOut.call true i o1 (.write n) = o2 ∧ SMid o i e o2 e2 (k + n) := by
      have h1 : SOut.call true i o1 (.write n) = { (o1.write i e1 n).1 with encs := (o1.write i e1 n).1.encs.set i (o1.write i e1 n).2 } := by
        simp only [SOut.call, hget]
      rw [h1]
      have ht := h.temp
      unfold SOut.write
      simp only
      by_cases hz : (n + e1.temp) / 184 = 0
      · rw [if_pos hz]
        refine ⟨_, { e1 with temp := n + e1.temp - (n + e1.temp) / 184 * 184 }, rfl, ⟨?_, ?_, ?_, h.info, h.initial, ?_⟩⟩
        · show o1.offset = _
          rw [h.offset]
          have : (k + n) / 184 = k / 184 := by omega
          rw [this]
        · show n + e1.temp - _ = _
          rw [hz]; omega
        · show e1.cc = _
          rw [h.cc]; omega
        · show o1.encs.set i _ = _
          rw [h.encs, List.set_set]
      · rw [if_neg hz]
        refine ⟨_, { e1 with cc := e1.cc + (n + e1.temp) / 184, temp := n + e1.temp - (n + e1.temp) / 184 * 184, flushed := e1.flushed + (e1.left + ((n + e1.temp) / 184 - 1) * 184), left := 184 }, rfl, ⟨?_, ?_, ?_, h.info, h.initial, ?_⟩⟩
        · show o1.offset + _ = _
          rw [h.offset]; omega
        · show n + e1.temp - _ = _
          omega
        · show e1.cc + _ = _
          rw [h.cc]; omega
        · show o1.encs.set i _ = _
          rw [h.encs, List.set_set]
    obtain ⟨o2, e2, h1, h2⟩ := hstep
    rw [h1]
    obtain ⟨o3, e3, h3, h4⟩ := ih o2 e2 (k + n) h2
    exact ⟨o3, e3, h3, by rw [List.sum_cons, ← Nat.add_assoc]; exact h4⟩

theorem satom_out (i : Nat) (o : SOut) (e : SEnc) (a : SAtom) (hi : o.encs[i]? = some e) (hc : ∀ e ∈ o.encs, e.temp = 0) :
    ∃ e', (a.calls.foldl (SOut.call true i) o).offset = o.offset + 188 * count e.info e.cc a.shape ∧
      (a.calls.foldl (SOut.call true i) o).encs = o.encs.set i e' ∧ e'.temp = 0 ∧ e'.info = e.info ∧
      (a.last = false → e'.cc = e.cc + count e.info e.cc a.shape) := by
  have hilt := lt_of_get hi
  have htemp : e.temp = 0 := hc e (List.mem_of_getElem? hi)
  have hp := pesSize_lt e.info
  rw [SAtom.calls, List.append_assoc, List.foldl_append, List.foldl_append]
  have hstart : ∃ o1 e1, [SCall.start a.dts a.key a.header].foldl (SOut.call true i) o = o1 ∧ SMid o i e o1 e1 e.info.pesSize := by
    rw [List.foldl_cons, List.foldl_nil]
    have h1 : SOut.call true i o (.start a.dts a.key a.header) =
        { (o.start i e a.header).1 with encs := (o.start i e a.header).1.encs.set i (o.start i e a.header).2 } := by
      simp only [SOut.call, sclose o i hc, hi]
    rw [h1]
    unfold SOut.start
    simp only [htemp, Nat.zero_add]
    rw [if_neg (by omega)]
    refine ⟨_, { e with temp := e.info.pesSize, flushed := 0, left := 184 - e.info.pesSize, header := a.header }, rfl, ⟨?_, ?_, ?_, rfl, rfl, rfl⟩⟩
    · show o.offset = _
      omega
    · show e.info.pesSize = _
      omega
    · show e.cc = _
      omega
  obtain ⟨o1, e1, h1, h2⟩ := hstart
  rw [h1]
  obtain ⟨o2, e2, h3, h4⟩ := swrites i o e hi a.ns o1 e1 _ h2
  rw [h3, List.foldl_cons, List.foldl_nil]
  have hget : o2.encs[i]? = some e2 := by rw [h4.encs, List.getElem?_set_self hilt]
  have h5 : SOut.call true i o2 (.flush a.last) =
      { (o2.flush true i e2 a.last).1 with encs := (o2.flush true i e2 a.last).1.encs.set i (o2.flush true i e2 a.last).2 } := by
    simp only [SOut.call, hget]
  rw [h5]
  have hstuff : ∃ o3 e3, o2.stuff i e2 = (o3, e3) ∧ o3.offset = o.offset + 188 * ((e.info.pesSize + a.ns.sum + 183) / 184) ∧ e3.temp = 0 ∧
      e3.cc = e.cc + (e.info.pesSize + a.ns.sum + 183) / 184 ∧ e3.info = e.info ∧ o3.encs = o.encs.set i e2 := by
    have t1 := h4.temp
    have t2 := h4.offset
    have t3 := h4.cc
    unfold SOut.stuff
    by_cases hz : 0 < e2.temp
    · rw [if_pos hz]
      refine ⟨_, _, rfl, ?_, rfl, ?_, h4.info, h4.encs⟩
      · show o2.offset + 188 = _
        omega
      · show e2.cc + 1 = _
        omega
    · rw [if_neg hz]
      exact ⟨_, _, rfl, by omega, by omega, by omega, h4.info, h4.encs⟩
  obtain ⟨o3, e3, s1, s2, s3, s4, s5, s6⟩ := hstuff
  unfold SOut.flush
  simp only [Bool.true_or, if_true, s1]
  unfold count SAtom.shape
  simp only
  cases hl : a.last with
  | false =>
    simp only [Bool.false_eq_true, if_false, false_and, Nat.add_zero]
    refine ⟨e3, s2, ?_, s3, s5, fun _ => s4⟩
    rw [s6, List.set_set]
  | true =>
    simp only [if_true, true_and]
    refine ⟨{ e3 with cc := e3.initialCc }, ?_, ?_, s3, s5, fun h => by cases h⟩
    · rw [s5, s4]
      by_cases h6 : (e.cc + (e.info.pesSize + a.ns.sum + 183) / 184) % 16 ≠ 0 ∧ e.info.media ≠ .id3
      · rw [if_pos h6, if_pos h6.2]
        show o3.offset + _ = _
        rw [s2]
        have := h6.1
        omega
      · rw [if_neg h6, s2]
        by_cases h7 : e.info.media ≠ .id3
        · have : (e.cc + (e.info.pesSize + a.ns.sum + 183) / 184) % 16 = 0 := by
            rcases Nat.eq_zero_or_pos ((e.cc + (e.info.pesSize + a.ns.sum + 183) / 184) % 16) with h | h
            · exact h
            · exact absurd ⟨by omega, h7⟩ h6
          rw [if_pos h7, this]; omega
        · rw [if_neg h7]; rfl
    · split
      · show o3.encs.set i _ = _
        rw [s6, List.set_set]
      · rw [s6, List.set_set]

theorem sout_calls_append (align : Bool) (i : Nat) (o : SOut) (a b : List SCall) : o.calls align i (a ++ b) = (o.calls align i a).calls align i b := by
  simp [SOut.calls]

/-- Simulated atoms, of which only the last may be the last of the stream. -/
theorem satoms_out (i : Nat) (as : List SAtom) (o : SOut) (e : SEnc) (hi : o.encs[i]? = some e) (hc : ∀ e ∈ o.encs, e.temp = 0)
    (hl : ∀ x y, as = x ++ y → y ≠ [] → ∀ a ∈ x, a.last = false) :
    ∃ e', (o.calls true i (satomCalls as)).offset = o.offset + 188 * countAll e.info e.cc (as.map SAtom.shape) ∧
      (o.calls true i (satomCalls as)).encs = o.encs.set i e' ∧ e'.temp = 0 ∧ e'.info = e.info ∧
      ((∀ a ∈ as, a.last = false) → e'.cc = e.cc + countAll e.info e.cc (as.map SAtom.shape)) := by
  induction as generalizing o e with
  | nil =>
    refine ⟨e, rfl, ?_, hc e (List.mem_of_getElem? hi), rfl, fun _ => rfl⟩
    show o.encs = _
    rw [set_self _ _ _ hi]
  | cons a as ih =>
    have h1 : satomCalls (a :: as) = a.calls ++ satomCalls as := by simp [satomCalls]
    rw [h1, sout_calls_append]
    obtain ⟨e1, p1, p2, p3, p4, p5⟩ := satom_out i o e a hi hc
    have hilt := lt_of_get hi
    have hc1 : ∀ x ∈ (o.calls true i a.calls).encs, x.temp = 0 := by
      show ∀ x ∈ (a.calls.foldl (SOut.call true i) o).encs, _
      rw [p2]
      intro x hx
      rcases List.mem_or_eq_of_mem_set hx with hx | hx
      · exact hc x hx
      · rw [hx]; exact p3
    obtain ⟨e2, q1, q2, q3, q4, q5⟩ := ih (o.calls true i a.calls) e1
      (by show (a.calls.foldl (SOut.call true i) o).encs[i]? = _; rw [p2, List.getElem?_set_self hilt]) hc1
      (fun x y hxy hy b hb => hl (a :: x) y (by rw [hxy]; rfl) hy b (by simp [hb]))
    refine ⟨e2, ?_, ?_, q3, q4.trans p4, ?_⟩
    · rw [q1]
      show (a.calls.foldl (SOut.call true i) o).offset + _ = _
      rw [p1, p4, List.map_cons, countAll]
      by_cases has : as = []
      · subst has; simp [countAll]
      · have := p5 (hl [a] as rfl has a (by simp))
        rw [this]; omega
    · rw [q2]
      show (a.calls.foldl (SOut.call true i) o).encs.set i e2 = _
      rw [p2, List.set_set]
    · intro hall
      have h5 := p5 (hall a (by simp))
      rw [q5 (fun b hb => hall b (by simp [hb])), p4, h5, List.map_cons, countAll]; omega

/-! ## The simulated buffer -/

/-- Between frames, with `u` bytes in the buffer, from a frame with `d`. -/
structure SBetween (b : SBuffer) (u d : Nat) : Prop where
  size : b.size = 2930
  used : b.used = u
  done : b.done = u
  state : b.state = if u = 0 then .initial else .flushed
  cur : u ≠ 0 → b.cur.1 = d
  fits : u ≤ 2930

/-- In a frame of which `p` bytes were written. -/
structure SStarted (b : SBuffer) (u d p : Nat) (f : Nat × Bool × Nat) : Prop where
  size : b.size = 2930
  used : b.used = u + p
  done : b.done = u
  state : b.state = .started
  cur : if u = 0 then b.cur = f else b.cur.1 = d
  last : b.last = f
  fits : u + p ≤ 2930

def spre (c : Nat × Bool × Nat) (u : Nat) : List SAtom := if u = 0 then [] else [⟨c.1, c.2.1, c.2.2, [u], false⟩]

theorem sflush_started (b : SBuffer) (u d p : Nat) (f : Nat × Bool × Nat) (h : SStarted b u d p f) :
    ∃ b' c, b.forceFlush false = (b', satomCalls (spre c u)) ∧ SStarted b' 0 d p f := by
  unfold SBuffer.forceFlush
  by_cases hu : u = 0
  · subst hu
    rw [if_pos h.done]
    exact ⟨b, f, rfl, h⟩
  · rw [if_neg (by rw [h.done]; exact hu)]
    refine ⟨_, b.cur, Prod.ext rfl ?_, ⟨h.size, ?_, rfl, ?_, ?_, h.last, ?_⟩⟩
    · rw [spre, if_neg hu, satomCalls_one, SAtom.calls, h.done]; rfl
    · show b.used - b.done = _
      rw [h.used, h.done]; omega
    · show (if b.state = .flushed then _ else b.state) = _
      rw [h.state]; rfl
    · rw [if_pos rfl]
      show (if b.state = .started then b.last else b.cur) = _
      rw [h.state, if_pos rfl, h.last]
    · have := h.fits; omega

theorem sbcalls_append (b : SBuffer) (x y : List SCall) :
    b.calls (x ++ y) = (((b.calls x).1.calls y).1, (b.calls x).2 ++ ((b.calls x).1.calls y).2) := by
  induction x generalizing b with
  | nil => rfl
  | cons c x ih => simp only [List.cons_append, SBuffer.calls, ih, List.append_assoc]

theorem sdirect_writes (ns : List Nat) (b : SBuffer) (h : b.state = .direct) : b.calls (ns.map .write) = (b, ns.map .write) := by
  induction ns with
  | nil => rfl
  | cons n ns ih =>
    rw [List.map_cons, SBuffer.calls]
    simp only [SBuffer.call, h, if_true]
    rw [ih]; rfl

theorem swrites_started (ns : List Nat) (b : SBuffer) (u d p : Nat) (f : Nat × Bool × Nat) (h : SStarted b u d p f) :
    ∃ b' cs, b.calls (ns.map .write) = (b', cs) ∧
      (if u + (p + ns.sum) ≤ 2930 then cs = [] ∧ SStarted b' u d (p + ns.sum) f
       else ∃ c, if p + ns.sum ≤ 2930 then cs = satomCalls (spre c u) ∧ SStarted b' 0 d (p + ns.sum) f
       else b'.state = .direct ∧ b'.used = 0 ∧ b'.done = 0 ∧ b'.size = 2930 ∧
         ∃ ms : List Nat, cs = satomCalls (spre c u) ++ [.start f.1 f.2.1 f.2.2] ++ ms.map .write ∧ ms.sum = p + ns.sum) := by
  induction ns generalizing b u p with
  | nil =>
    refine ⟨b, [], rfl, ?_⟩
    have := h.fits
    rw [if_pos (by simpa using this)]
    exact ⟨rfl, by simpa using h⟩
  | cons n ns ih =>
    have hfit := h.fits
    rw [List.map_cons, SBuffer.calls]
    simp only [SBuffer.call, h.state, h.size, h.used, reduceCtorEq, if_false]
    rw [List.sum_cons, ← Nat.add_assoc p]
    by_cases h1 : 2930 < u + p + n
    · rw [if_pos h1]
      obtain ⟨b1, c, f1, f2⟩ := sflush_started b u d p f h
      rw [f1]
      have hover : ¬ u + (p + n + ns.sum) ≤ 2930 := by omega
      simp only [if_neg hover]
      simp only [f2.size, f2.used, Nat.zero_add]
      by_cases h2 : p + n ≤ 2930
      · rw [if_pos h2]
        simp only
        obtain ⟨b2, cs, g1, g2⟩ := ih { b1 with size := 2930, used := p + n } 0 (p + n)
          ⟨rfl, by simp, f2.done, f2.state, f2.cur, f2.last, by omega⟩
        rw [g1]
        refine ⟨b2, _, rfl, c, ?_⟩
        rw [Nat.zero_add] at g2
        by_cases h3 : p + n + ns.sum ≤ 2930
        · rw [if_pos h3] at g2 ⊢
          rw [g2.1, List.append_nil]
          exact ⟨rfl, g2.2⟩
        · rw [if_neg h3] at g2
          obtain ⟨c', g2⟩ := g2
          rw [if_neg h3] at g2 ⊢
          obtain ⟨d1, d2, d3, d4, ms, m1, m2⟩ := g2
          refine ⟨d1, d2, d3, d4, ms, ?_, m2⟩
          rw [m1]; simp [spre]
      · rw [if_neg h2]
        simp only
        rw [sdirect_writes _ _ rfl]
        refine ⟨_, _, rfl, c, ?_⟩
        rw [if_neg (by omega)]
        have hcur : b1.cur = f := by have := f2.cur; rwa [if_pos rfl] at this
        refine ⟨rfl, rfl, f2.done, rfl, (p + n) :: ns, ?_, by simp⟩
        rw [hcur]; simp
    · rw [if_neg h1]
      simp only
      have h2 : b.used + n ≤ b.size := by rw [h.used, h.size]; omega
      simp only [if_pos h2, List.nil_append]
      obtain ⟨b2, cs, g1, g2⟩ := ih { b with used := b.used + n } u (p + n)
        ⟨h.size, by show b.used + n = _; rw [h.used]; omega, h.done, h.state, h.cur, h.last, by omega⟩
      rw [g1]
      exact ⟨b2, cs, rfl, g2⟩

theorem spre_shape (c : Nat × Bool × Nat) (u : Nat) : (spre c u).map SAtom.shape = if u = 0 then [] else [(u, false)] := by
  unfold spre
  split
  · rfl
  · simp [SAtom.shape]

theorem sflush_end (b : SBuffer) (u d p : Nat) (f : Nat × Bool × Nat) (h : SStarted b u d p f) (l : Bool) (hp : 0 < p) :
    ∃ b' sas, b.calls [.flush l] = (b', satomCalls sas) ∧ sas.map SAtom.shape = (if l then [(u + p, true)] else []) ∧
      SBetween b' (if l then 0 else u + p) (if u ≠ 0 then d else f.1) := by
  have hu : b.used = u + p := h.used
  cases l with
  | false =>
    refine ⟨{ b with done := b.used, state := .flushed }, [], ?_, rfl, ?_⟩
    · simp [SBuffer.calls, SBuffer.call, h.state]
    · simp only [Bool.false_eq_true, if_false]
      refine ⟨h.size, hu, hu, ?_, fun _ => ?_, h.fits⟩
      · rw [if_neg (by omega)]
      · have := h.cur
        show b.cur.1 = _
        by_cases h0 : u = 0
        · rw [if_pos h0] at this
          rw [if_neg (by omega), this]
        · rw [if_neg h0] at this
          rw [if_pos h0, this]
  | true =>
    refine ⟨{ b with used := b.used - b.used, done := 0, cur := b.cur, state := .initial }, [⟨b.cur.1, b.cur.2.1, b.cur.2.2, [b.used], true⟩], ?_, ?_, ?_⟩
    · have hne : ¬ b.used = 0 := by omega
      simp [SBuffer.calls, SBuffer.call, h.state, SBuffer.forceFlush, hne, SAtom.calls]
    · simp [SAtom.shape, hu]
    · simp only [if_true]
      exact ⟨h.size, by show b.used - b.used = 0; omega, rfl, rfl, fun h => absurd rfl h, by omega⟩

theorem sbuf_frame (b : SBuffer) (u d : Nat) (h : SBetween b u d) (f : Nat × Bool × Nat) (ns : List Nat) (hn : 0 < ns.sum) (l : Bool) :
    ∃ b' sas, b.calls ([.start f.1 f.2.1 f.2.2] ++ ns.map .write ++ [.flush l]) = (b', satomCalls sas) ∧
      sas.map SAtom.shape = (plan 2930 u ns.sum l).1 ∧ SBetween b' (plan 2930 u ns.sum l).2 (if u + ns.sum ≤ 2930 ∧ u ≠ 0 then d else f.1) := by
  rw [List.append_assoc, sbcalls_append, sbcalls_append]
  have hs : ∃ b1, b.calls [.start f.1 f.2.1 f.2.2] = (b1, []) ∧ SStarted b1 u d 0 f := by
    refine ⟨_, rfl, ⟨h.size, by show b.used = _; rw [h.used]; rfl, h.done, rfl, ?_, rfl, h.fits⟩⟩
    show if u = 0 then (if b.state = .initial then f else b.cur) = f else (if b.state = .initial then f else b.cur).1 = d
    rw [h.state]
    by_cases h0 : u = 0
    · rw [if_pos h0, if_pos h0, if_pos rfl]
    · rw [if_neg h0, if_neg h0, if_neg (by decide)]
      exact h.cur h0
  obtain ⟨b1, s1, s2⟩ := hs
  obtain ⟨b2, cs, w1, w2⟩ := swrites_started ns b1 u d 0 f s2
  rw [s1]
  simp only [w1, List.nil_append]
  rw [Nat.zero_add] at w2
  unfold plan
  by_cases h1 : u + ns.sum ≤ 2930
  · rw [if_pos h1] at w2
    obtain ⟨b3, sas, e1, e2, e3⟩ := sflush_end b2 u d ns.sum f w2.2 l hn
    rw [e1, w2.1, List.nil_append]
    refine ⟨b3, sas, rfl, ?_, ?_⟩
    · rw [e2, if_pos h1]; cases l <;> rfl
    · rw [if_pos h1]
      by_cases h0 : u = 0
      · rw [if_neg (show ¬ (u + ns.sum ≤ 2930 ∧ u ≠ 0) from fun h => h.2 h0)]; rw [if_neg (show ¬ u ≠ 0 from fun h => h h0)] at e3
        cases l <;> exact e3
      · rw [if_pos (show u + ns.sum ≤ 2930 ∧ u ≠ 0 from ⟨h1, h0⟩)]; rw [if_pos h0] at e3
        cases l <;> exact e3
  · rw [if_neg h1] at w2
    obtain ⟨c, w2⟩ := w2
    rw [if_neg h1, if_neg (show ¬ (u + ns.sum ≤ 2930 ∧ u ≠ 0) from fun h => h1 h.1)]
    by_cases h2 : ns.sum ≤ 2930
    · rw [if_pos h2] at w2 ⊢
      obtain ⟨b3, sas, e1, e2, e3⟩ := sflush_end b2 0 d ns.sum f w2.2 l hn
      rw [e1, w2.1, ← satomCalls_append]
      refine ⟨b3, spre c u ++ sas, rfl, ?_, ?_⟩
      · rw [List.map_append, e2, spre_shape, Nat.zero_add]; cases l <;> simp
      · rw [if_neg (show ¬ (0 : Nat) ≠ 0 from fun h => h rfl), Nat.zero_add] at e3
        cases l <;> exact e3
    · rw [if_neg h2] at w2 ⊢
      obtain ⟨d1, d2, d3, d4, ms, m1, m2⟩ := w2
      refine ⟨{ b2 with state := .initial }, spre c u ++ [⟨f.1, f.2.1, f.2.2, ms, l⟩], ?_, ?_, ?_⟩
      · simp [SBuffer.calls, SBuffer.call, d1, m1, SAtom.calls]
      · rw [List.map_append, spre_shape]; simp [SAtom.shape, m2]
      · exact ⟨d4, d2, d3, rfl, fun h => absurd rfl h, by omega⟩

theorem sbuf_flush (b : SBuffer) (u d : Nat) (h : SBetween b u d) :
    ∃ sas, (b.forceFlush false).2 = satomCalls sas ∧ sas.map SAtom.shape = (if u = 0 then [] else [(u, false)]) ∧ SBetween (b.forceFlush false).1 0 d := by
  unfold SBuffer.forceFlush
  by_cases h0 : u = 0
  · subst h0
    rw [if_pos h.done]
    exact ⟨[], rfl, rfl, h⟩
  · rw [if_neg (by rw [h.done]; exact h0)]
    refine ⟨[⟨b.cur.1, b.cur.2.1, b.cur.2.2, [b.done], false⟩], rfl, ?_, ⟨h.size, ?_, rfl, ?_, fun h => absurd rfl h, by omega⟩⟩
    · simp [SAtom.shape, h.done, h0]
    · show b.used - b.done = 0
      rw [h.used, h.done]; omega
    · show (if b.state = .flushed then _ else b.state) = _
      rw [h.state, if_neg h0]; rfl

/-! ## The simulated filters -/

/-- The filters of the simulation between frames, with `u` bytes in the buffer. -/
def SFiltInv (k : Kind) (filt : SFilt) (u d : Nat) : Prop :=
  match k with
  | .video c => filt = .video c
  | .audio h => ∃ b, filt = .audio h.isSome b ∧ SBetween b u d
  | .id3 _ => filt = .id3

def SFilt.header (aac : Bool) (c : SCall) : List SCall := if aac then aacScall c else [c]

theorem saudio_calls (h : Bool) (b : SBuffer) (cs : List SCall) :
    (SFilt.audio h b).calls cs = (.audio h (b.calls (cs.flatMap (SFilt.header h))).1, (b.calls (cs.flatMap (SFilt.header h))).2) := by
  induction cs generalizing b with
  | nil => rfl
  | cons c cs ih =>
    rw [SFilt.calls, List.flatMap_cons, sbcalls_append]
    simp only [SFilt.call, ih]
    rfl

/-- The bytes that come from a frame. -/
def Kind.grown (k : Kind) (key : Bool) (n : Nat) : Nat :=
  match k with
  | .video c => c.aud.length + (if key then c.extra.length else 0) + n
  | .audio (some _) => 7 + n
  | .audio none => n
  | .id3 _ => 21 + n

theorem sfilt_frame (k : Kind) (filt : SFilt) (u d : Nat) (h : SFiltInv k filt u d) (time : Nat) (key : Bool) (n : Nat) (hn : k = .audio none → 0 < n) (l : Bool) :
    ∃ filt' sas, filt.calls [.start time key 0, .write n, .flush l] = (filt', satomCalls sas) ∧
      sas.map SAtom.shape = (k.plan u (k.grown key n) l).1 ∧ SFiltInv k filt' (k.plan u (k.grown key n) l).2 (if u + k.grown key n ≤ 2930 ∧ u ≠ 0 then d else time) := by
  cases k with
  | video c =>
    refine ⟨.video c, [⟨time, key, 0 + c.aud.length, [c.aud.length + (if key then c.extra.length else 0), n], l⟩], ?_, ?_, rfl⟩
    · rw [show filt = .video c from h]
      simp [SFilt.calls, SFilt.call, VideoConf.scall, SAtom.calls]
    · simp [SAtom.shape, Kind.plan, Kind.grown]
  | audio hh =>
    obtain ⟨b, rfl, hb⟩ := h
    rw [saudio_calls]
    cases hh with
    | some a =>
      obtain ⟨b', sas, e1, e2, e3⟩ := sbuf_frame b u d hb (time, key, 0 + 1) [7, n] (by simp; omega) l
      rw [show [7, n].sum = 7 + n by simp] at e2 e3
      refine ⟨.audio true b', sas, ?_, ?_, ⟨b', rfl, ?_⟩⟩
      · have : ([SCall.start time key 0, .write n, .flush l].flatMap (SFilt.header true)) = [.start time key (0 + 1)] ++ [7, n].map .write ++ [.flush l] := by
          simp [SFilt.header, aacScall]
        simp only [Option.isSome_some, this, e1]
      · exact e2
      · exact e3
    | none =>
      obtain ⟨b', sas, e1, e2, e3⟩ := sbuf_frame b u d hb (time, key, 0) [n] (by simpa using hn rfl) l
      rw [show [n].sum = n by simp] at e2 e3
      refine ⟨.audio false b', sas, ?_, ?_, ⟨b', rfl, ?_⟩⟩
      · have : ([SCall.start time key 0, .write n, .flush l].flatMap (SFilt.header false)) = [.start time key 0] ++ [n].map .write ++ [.flush l] := by
          simp [SFilt.header]
        simp only [Option.isSome_none, this, e1]
      · exact e2
      · exact e3
  | id3 cc =>
    rw [show filt = .id3 from h]
    refine ⟨.id3, [⟨time, key, 0, [21, n], l⟩], ?_, ?_, rfl⟩
    · simp [SFilt.calls, SFilt.call, id3Scall, SAtom.calls]
    · simp [SAtom.shape, Kind.plan, Kind.grown]

end Verif.Mts
