import Verif.TsProps
import Verif.TsSpec

/-!
# MPEG-TS: the packets of one stream

For a state in which the tables are known, reading packets is reading the packets of each stream alone.
-/

namespace Verif.Ts

open TsSpec (Packet)

/-! ## The header -/

theorem toNat_ofNat {n : Nat} (h : n < 256) : (UInt8.ofNat n).toNat = n := by
  simp [UInt8.toNat_ofNat', Nat.mod_eq_of_lt h]

/-- The header of a packet, as it is read. -/
def hdOf (q : Packet) : Hd := { pusi := q.start, rand := q.random, cont := q.cont, pid := q.pid }

theorem readHeader_bytes (q : Packet) (hq : q.Ok) :
    ∃ n, readHeader q.bytes = .ok (.ok (hdOf q) n) ∧ q.bytes.drop (n.getD 188) = q.payload := by
  obtain ⟨pid, start, cont, prio, adapt, payload⟩ := q
  obtain ⟨h1, h2, h3, h4⟩ := hq
  simp only at h1 h2 h4
  have e1 : (UInt8.ofNat ((if start = true then 64 else 0) + (if prio = true then 32 else 0) + pid / 256)).toNat =
      (if start = true then 64 else 0) + (if prio = true then 32 else 0) + pid / 256 := toNat_ofNat (by split <;> split <;> omega)
  have e2 : (UInt8.ofNat (pid % 256)).toNat = pid % 256 := toNat_ofNat (by omega)
  have f1 : ((if start = true then 64 else 0) + (if prio = true then 32 else 0) + pid / 256) / 64 % 2 = 1 ↔ start = true := by
    cases start <;> cases prio <;> simp <;> omega
  have f2 : ((if start = true then 64 else 0) + (if prio = true then 32 else 0) + pid / 256) % 32 * 256 + pid % 256 = pid := by
    cases start <;> cases prio <;> simp <;> omega
  cases adapt with
  | none =>
    simp only [TsSpec.Packet.bytes, TsSpec.Packet.field, List.append_nil, List.cons_append, List.nil_append, List.length_cons] at h3
    have hp : payload ≠ [] := by
      intro h
      subst h
      simp at h3
    have e3 : (UInt8.ofNat (16 + cont)).toNat = 16 + cont := toNat_ofNat (by omega)
    refine ⟨some 4, ?_, by simp [TsSpec.Packet.bytes, TsSpec.Packet.field]⟩
    simp only [readHeader, byteAt, TsSpec.Packet.bytes, TsSpec.Packet.field, List.append_nil, List.cons_append, List.nil_append,
      List.getElem?_cons_zero, List.getElem?_cons_succ, Res.bind_ok, e1, e2, f2, Option.isSome_none, Bool.false_eq_true, if_false, hp,
      Nat.zero_add, e3]
    rw [if_neg (by decide), if_neg (by omega), if_neg (by omega)]
    simp only [hdOf, TsSpec.Packet.random, Res.ok.injEq, HdRes.ok.injEq, Hd.mk.injEq, and_true, true_and]
    refine ⟨?_, by omega⟩
    simp only [f1, Bool.decide_eq_true]
  | some a =>
    simp only [TsSpec.Packet.bytes, TsSpec.Packet.field, List.cons_append, List.nil_append, List.length_cons,
      List.length_append] at h3
    obtain ⟨pl, hpl⟩ : ∃ pl, pl = if payload = [] then 0 else 16 := ⟨_, rfl⟩
    have e3 : (UInt8.ofNat (32 + pl + cont)).toNat = 32 + pl + cont := toNat_ofNat (by rw [hpl]; split <;> omega)
    have e4 : (UInt8.ofNat a.length).toNat = a.length := toNat_ofNat (by omega)
    have hpay : a.length ≤ 183 := by omega
    have key : ∀ (hd : Hd) (n : Option Nat), n = (if (32 + pl + cont) / 16 % 4 % 2 = 1 then some (4 + a.length + 1) else none) →
        (hd = hdOf ⟨pid, start, cont, prio, some a, payload⟩) →
        (Res.ok (HdRes.ok hd (if (32 + pl + cont) / 16 % 4 % 2 = 1 then some (4 + a.length + 1) else none)) =
          .ok (.ok (hdOf ⟨pid, start, cont, prio, some a, payload⟩) n)) := by
      intro hd n hn hh
      rw [← hn, hh]
    refine ⟨if (32 + pl + cont) / 16 % 4 % 2 = 1 then some (4 + a.length + 1) else none, ?_, ?_⟩
    · simp only [readHeader, byteAt, TsSpec.Packet.bytes, TsSpec.Packet.field, List.cons_append, List.nil_append,
        List.getElem?_cons_zero, List.getElem?_cons_succ, Res.bind_ok, e1, e2, f2, Option.isSome_some, if_true]
      rw [← hpl, e3, if_neg (by decide), if_neg (by rw [hpl]; split <;> omega), if_pos (by rw [hpl]; split <;> omega)]
      simp only [readAdapt, byteAt, List.getElem?_cons_zero, List.getElem?_cons_succ, Res.bind_ok, e4]
      rw [if_neg (by omega)]
      cases a with
      | nil =>
        simp only [List.length_nil, if_true]
        refine key _ _ rfl ?_
        simp only [hdOf, TsSpec.Packet.random, Hd.mk.injEq, and_true, true_and, f1, Bool.decide_eq_true]
        rw [hpl]
        split <;> omega
      | cons f t =>
        simp only [List.length_cons, List.cons_append, List.getElem?_cons_zero, Res.bind_ok, Nat.add_eq_zero_iff, Nat.one_ne_zero,
          and_false, if_false]
        have hrand : hdOf ⟨pid, start, cont, prio, some (f :: t), payload⟩ =
            { pusi := decide (((if start = true then 64 else 0) + (if prio = true then 32 else 0) + pid / 256) / 64 % 2 = 1),
              rand := decide (f.toNat / 64 % 2 = 1), cont := (32 + pl + cont) % 16, pid := pid } := by
          simp only [hdOf, TsSpec.Packet.random, Hd.mk.injEq, and_true, true_and, f1, Bool.decide_eq_true]
          rw [hpl]
          split <;> omega
        split
        · rename_i hpcr
          have h6 := h4 f t rfl hpcr
          match t, h6 with
          | t0 :: t1 :: t2 :: t3 :: t4 :: t5 :: t, _ =>
            simp only [readPcr, byteAt, List.cons_append, List.getElem?_cons_zero, List.getElem?_cons_succ, Res.bind_ok,
              List.length_cons]
            rw [if_neg (by omega)]
            simp only [Res.bind_ok, if_true]
            exact key _ _ rfl hrand.symm
        · exact key _ _ rfl hrand.symm
    · simp only [TsSpec.Packet.bytes, TsSpec.Packet.field, List.cons_append, List.nil_append]
      by_cases hp : payload = []
      · subst hp
        rw [if_neg (by rw [hpl]; simp; omega)]
        simp only [Option.getD_none]
        refine List.drop_of_length_le ?_
        simp only [List.length_cons, List.length_append, List.length_nil] at h3 ⊢
        omega
      · rw [if_pos (by rw [hpl]; simp only [hp, if_false]; omega)]
        simp only [Option.getD_some]
        have : 4 + a.length + 1 = a.length + 1 + 1 + 1 + 1 + 1 := by omega
        rw [this]
        simp only [List.drop_succ_cons, List.drop_left]

/-! ## One stream -/

/-- A stream, with the data of its buffers instead of the buffers. -/
structure A where
  pid : Nat
  cont : Option Nat
  pts : Nat
  dts : Nat
  rand : Bool
  corrupt : Bool
  chain : Br
deriving DecidableEq, Repr

/-- The data of a stream. -/
def absEs (e : Es) : A :=
  { pid := e.pid, cont := e.cont, pts := e.pts, dts := e.dts, rand := e.rand, corrupt := e.corrupt, chain := chain e.bufs }

/-- `flush` for the data. -/
def flushA (a : A) : Flush :=
  match pesStart a.chain with
  | .again => .keep
  | .bad => .bad
  | .ok (sid, len, br) =>
    if sid = 0xbe then .done a.pts a.dts a.corrupt none
    else
      match pesBody sid len br with
      | .again => .keep
      | .bad => .bad
      | .ok (t, len, br) =>
        let pts := match t with | none => a.pts | some t => t.1
        let dts := match t with | none => a.dts | some t => t.2
        if a.corrupt ∨ (len ≠ 0 ∧ left br ≠ len) then .done pts dts false none
        else .done pts dts false (some (.pes a.pid sid pts dts a.rand br))

theorem flush_abs (e : Es) : flush e = flushA (absEs e) := rfl

/-- `pesNext` for the data. -/
def nextA (a : A) (start : Bool) : A × Option Event × Bool :=
  if start ∧ a.chain ≠ [] then
    match flushA a with
    | .keep => (a, none, false)
    | .bad => (a, none, true)
    | .done pts dts corrupt ev => ({ a with pts := pts, dts := dts, corrupt := corrupt, chain := [] }, ev, false)
  else (a, none, false)

/-- `appendBuf` for the data. -/
def appendA (start : Bool) (ch : Br) (c : List UInt8) : Br :=
  if ¬ start ∧ ch = [] then ch
  else if start ∧ ch ≠ [] then [c]
  else ch ++ [c]

/-- `pesAdd` for the data. -/
def addA (a : A) (q : Packet) : A × Bool :=
  let a := if a.chain = [] then { a with rand := q.random } else a
  let ch := appendA q.start a.chain q.payload
  ({ a with corrupt := a.corrupt || skipped a.cont q.cont, cont := some q.cont, chain := ch },
    match pesStart ch with
    | .bad => true
    | _ => false)

/-- A packet of the stream: the stream, the event, whether there is an error. -/
def stepA (a : A) (q : Packet) : A × Option Event × Bool :=
  let n := nextA a q.start
  if n.2.2 then n else ((addA n.1 q).1, n.2.1, (addA n.1 q).2)

/-- Packets of the stream. -/
def runA : A → List Packet → A × List Event × Bool
  | a, [] => (a, [], false)
  | a, q :: qs =>
    let o := stepA a q
    if o.2.2 then (o.1, o.2.1.toList, true)
    else
      let r := runA o.1 qs
      (r.1, o.2.1.toList ++ r.2.1, r.2.2)

theorem chain_nil {bs : List Buf} : chain bs = [] ↔ bs = [] := by cases bs <;> simp [chain]

theorem pesNext_abs (e : Es) (q : Packet) (free : List Buf) :
    absEs (pesNext e (hdOf q) free).1 = (nextA (absEs e) q.start).1 ∧
    (pesNext e (hdOf q) free).2.2 = (nextA (absEs e) q.start).2 ∧ (pesNext e (hdOf q) free).1.pid = e.pid := by
  have h1 : (absEs e).chain ≠ [] ↔ e.bufs ≠ [] := by simp only [absEs, ne_eq, chain_nil]
  by_cases hc : q.start = true ∧ e.bufs ≠ []
  · have hx : pesNext e (hdOf q) free = (match flush e with
      | .keep => (e, free, none, false)
      | .bad => (e, free, none, true)
      | .done pts dts corrupt ev =>
        ({ e with pts := pts, dts := dts, corrupt := corrupt, bufs := [] }, e.bufs ++ free, ev, false)) := if_pos hc
    have hy : nextA (absEs e) q.start = (match flushA (absEs e) with
      | .keep => (absEs e, none, false)
      | .bad => (absEs e, none, true)
      | .done pts dts corrupt ev =>
        ({ absEs e with pts := pts, dts := dts, corrupt := corrupt, chain := [] }, ev, false)) :=
      if_pos ⟨hc.1, h1.2 hc.2⟩
    rw [hx, hy, flush_abs]
    cases flushA (absEs e) with
    | keep => exact ⟨rfl, rfl, rfl⟩
    | bad => exact ⟨rfl, rfl, rfl⟩
    | done => exact ⟨rfl, rfl, rfl⟩
  · have hx : pesNext e (hdOf q) free = (e, free, none, false) := if_neg hc
    have hy : nextA (absEs e) q.start = (absEs e, none, false) := if_neg fun h => hc ⟨h.1, h1.1 h.2⟩
    rw [hx, hy]
    exact ⟨rfl, rfl, rfl⟩

theorem appendBuf_abs (h : Hd) (bufs free : List Buf) (b : Buf) (q : Packet) (hh : h.pusi = q.start)
    (hb : b.mem.drop b.pos = q.payload) : chain (appendBuf h bufs free b).1 = appendA q.start (chain bufs) q.payload := by
  unfold appendBuf appendA
  simp only [chain_nil, hh, ne_eq]
  split
  · rfl
  · split
    · simp [chain, hb]
    · simp [chain, hb]

theorem pesAdd_abs (e : Es) (q : Packet) (free : List Buf) (b : Buf) (hb : b.mem.drop b.pos = q.payload) :
    absEs (pesAdd e (hdOf q) free b).1 = (addA (absEs e) q).1 ∧ (pesAdd e (hdOf q) free b).2.2 = (addA (absEs e) q).2 ∧
    (pesAdd e (hdOf q) free b).1.pid = e.pid := by
  have h0 := appendBuf_abs (hdOf q) e.bufs free b q rfl hb
  unfold pesAdd addA
  have hx : (absEs e).chain = chain e.bufs := rfl
  by_cases he : e.bufs = []
  · have : (absEs e).chain = [] := by rw [hx, chain_nil]; exact he
    simp only [he, this, if_true]
    rw [he] at h0
    simp only [chain, List.map_nil] at h0
    refine ⟨?_, ?_, trivial⟩
    · simp only [absEs, hdOf] at h0 ⊢
      simp only [chain] at *
      rw [h0]
    · simp only [chain, h0]
      rfl
  · have : (absEs e).chain ≠ [] := by rw [hx, ne_eq, chain_nil]; exact he
    simp only [he, this, if_false]
    refine ⟨?_, ?_, trivial⟩
    · simp only [absEs, hdOf] at h0 ⊢
      rw [h0]
    · rw [h0]
      rfl

/-! ## Finding a stream -/

theorem findEs_set_hit {q j0 j : Nat} {es : List Es} {e e' : Es} (h : findEs q j0 es = some (j, e)) (hp : e'.pid = q) :
    findEs q j0 (es.set (j - j0) e') = some (j, e') := by
  induction es generalizing j0 with
  | nil => cases h
  | cons x es ih =>
    unfold findEs at h
    split at h
    · cases h
      simp [findEs, hp]
    · rename_i hx
      obtain ⟨h1, _, _⟩ := findEs_some h
      have : j - j0 = (j - (j0 + 1)) + 1 := by omega
      rw [this, List.set_cons_succ]
      simp only [findEs, hx, if_false]
      exact ih h

theorem findEs_set_miss {q j0 k : Nat} {es : List Es} {e e' : Es} (hk : es[k]? = some e) (hq : q ≠ e.pid) (hp : e'.pid = e.pid) :
    findEs q j0 (es.set k e') = findEs q j0 es := by
  induction es generalizing j0 k with
  | nil => rfl
  | cons x es ih =>
    cases k with
    | zero =>
      simp only [List.getElem?_cons_zero, Option.some.injEq] at hk
      subst hk
      simp only [List.set_cons_zero, findEs, hp, hq, if_false]
    | succ k =>
      simp only [List.set_cons_succ, findEs]
      split
      · rfl
      · exact ih (by simpa using hk)

/-- The data of the stream of a pid. -/
def viewOf (pid : Nat) (ps : List Prog) : Option A :=
  if pid = 0 then none
  else
    match findPid pid 0 ps with
    | some (.es _ _ _ e) => some (absEs e)
    | _ => none

theorem findPid_set_hit {q i0 i j : Nat} {ps : List Prog} {p : Prog} {e e' : Es} (h : findPid q i0 ps = some (.es i p j e))
    (hp : e'.pid = q) :
    findPid q i0 (ps.set (i - i0) { p with es := p.es.set j e' }) = some (.es i { p with es := p.es.set j e' } j e') := by
  induction ps generalizing i0 with
  | nil => cases h
  | cons x ps ih =>
    unfold findPid at h
    split at h
    · cases h
    · rename_i hx
      split at h
      · rename_i j' e0 he
        cases h
        have := findEs_set_hit he hp
        simp only [Nat.sub_zero] at this
        simp only [Nat.sub_self, List.set_cons_zero, findPid, hx, if_false, this]
      · rename_i he
        obtain ⟨h1, _⟩ := findPid_some h
        have : i - i0 = (i - (i0 + 1)) + 1 := by omega
        rw [this, List.set_cons_succ]
        simp only [findPid, hx, if_false, he]
        exact ih h

/-- What a target shows. -/
def Target.view : Target → Option Es
  | .pmt _ _ => none
  | .es _ _ _ e => some e

theorem findPid_set_miss {q i0 i j : Nat} {ps : List Prog} {p : Prog} {e e' : Es} (hi : ps[i]? = some p) (hj : p.es[j]? = some e)
    (hq : q ≠ e.pid) (hp : e'.pid = e.pid) :
    (findPid q i0 (ps.set i { p with es := p.es.set j e' })).map Target.view = (findPid q i0 ps).map Target.view := by
  induction ps generalizing i0 i with
  | nil => rfl
  | cons x ps ih =>
    cases i with
    | zero =>
      simp only [List.getElem?_cons_zero, Option.some.injEq] at hi
      subst hi
      simp only [List.set_cons_zero, findPid]
      split
      · rfl
      · rw [findEs_set_miss hj hq hp]
        split <;> rfl
    | succ i =>
      simp only [List.set_cons_succ, findPid]
      split
      · rfl
      · split
        · rfl
        · exact ih (by simpa using hi)

theorem viewOf_view (pid : Nat) (ps : List Prog) :
    viewOf pid ps = if pid = 0 then none else (((findPid pid 0 ps).map Target.view).join).map absEs := by
  unfold viewOf
  split
  · rfl
  · cases findPid pid 0 ps with
    | none => rfl
    | some t => cases t <;> rfl

theorem viewOf_pid {pid : Nat} {ps : List Prog} {a : A} (h : viewOf pid ps = some a) : a.pid = pid := by
  unfold viewOf at h
  split at h
  · cases h
  · split at h
    · rename_i hf
      cases h
      exact (findPid_some hf).2.2.2
    · cases h

/-! ## A packet -/

/-- All tables are known. -/
def St.Known (s : St) : Prop := s.progs ≠ [] ∧ ∀ p ∈ s.progs, p.es ≠ []

theorem known_set {s : St} (h : s.Known) {i j : Nat} {p : Prog} {e' : Es} (hi : s.progs[i]? = some p) :
    (s.progs.set i { p with es := p.es.set j e' }) ≠ [] ∧
    ∀ x ∈ s.progs.set i { p with es := p.es.set j e' }, x.es ≠ [] := by
  obtain ⟨h1, h2⟩ := h
  refine ⟨?_, fun x hx => ?_⟩
  · intro hn
    have : (s.progs.set i { p with es := p.es.set j e' }).length = s.progs.length := List.length_set ..
    rw [hn] at this
    exact h1 (List.eq_nil_of_length_eq_zero this.symm)
  · rcases mem_set hx with h | h
    · subst h
      intro hn
      have : (p.es.set j e').length = p.es.length := List.length_set ..
      simp only at hn
      rw [hn] at this
      exact h2 p (List.mem_of_getElem? hi) (List.eq_nil_of_length_eq_zero this.symm)
    · exact h2 x h

/-- The events of a packet, given the stream. -/
def evsOf (a : Option A) (q : Packet) : List Event :=
  match a with
  | none => []
  | some a => (stepA a q).2.1.toList

/-- What a packet does when the tables are known. -/
structure Stepped (s : St) (q : Packet) (s' : St) : Prop where
  known : s'.Known
  same : viewOf q.pid s'.progs = (viewOf q.pid s.progs).map fun a => (stepA a q).1
  other : ∀ pid, pid ≠ q.pid → viewOf pid s'.progs = viewOf pid s.progs
  log : s'.log = s.log ++ evsOf (viewOf q.pid s.progs) q
  good : ∀ a, viewOf q.pid s.progs = some a → (stepA a q).2.2 = false

theorem readPes_step (H : Handler) {s : St} (hk : s.Known) (hf : s.fail = none) (q : Packet) {b : Buf}
    (hb : b.mem.drop b.pos = q.payload) (hq0 : q.pid ≠ 0) {i j : Nat} {p : Prog} {e : Es}
    (hfind : findPid q.pid 0 s.progs = some (.es i p j e)) :
    ((s.readPes H i p j e (hdOf q) b).fail = none → Stepped s q (s.readPes H i p j e (hdOf q) b)) ∧
    (∀ f, (s.readPes H i p j e (hdOf q) b).fail = some f →
      f = .handler ∨ (f = .pes ∧ ∃ a, viewOf q.pid s.progs = some a ∧ (stepA a q).2.2 = true)) := by
  obtain ⟨_, hi, hj, hpid⟩ := findPid_some hfind
  have hi : s.progs[i]? = some p := by simpa using hi
  have hview : viewOf q.pid s.progs = some (absEs e) := by unfold viewOf; rw [if_neg hq0, hfind]
  obtain ⟨n1, n2, n3⟩ := pesNext_abs e q s.free
  unfold St.readPes
  generalize pesNext e (hdOf q) s.free = n at *
  obtain ⟨e1, free1, ev, bad1⟩ := n
  simp only at n1 n2 n3
  simp only
  rw [runOpt_parts]
  have hfl : ∀ f, (s.runOpt H ev).fail = some f → f = .handler := by
    intro f hx
    cases ev with
    | none =>
      simp only [St.runOpt, hf] at hx
      cases hx
    | some ev =>
      simp only [St.runOpt, St.run, hf] at hx
      split at hx
      · cases hx
      · cases hx
        rfl
  generalize (s.runOpt H ev).fail = fl at *
  cases bad1 with
  | true =>
    simp only [if_true, Option.isSome_some]
    refine ⟨fun h => by simp at h, fun f h => ?_⟩
    simp only [Option.some.injEq] at h
    refine .inr ⟨h.symm, _, hview, ?_⟩
    unfold stepA
    simp only
    rw [← n2]
    simp only [if_true]
    rw [← n2]
  | false =>
    simp only [Bool.false_eq_true, if_false, St.setProg]
    cases fl with
    | some f =>
      simp only [Option.isSome_some, if_true]
      refine ⟨fun h => by simp at h, fun f' h => ?_⟩
      simp only [Option.some.injEq] at h
      subst h
      exact .inl (hfl f rfl)
    | none =>
      simp only [Option.isSome_none, Bool.false_eq_true, if_false]
      obtain ⟨a1, a2, a3⟩ := pesAdd_abs e1 q free1 b hb
      generalize pesAdd e1 (hdOf q) free1 b = ad at *
      obtain ⟨e2, free2, bad2⟩ := ad
      simp only at a1 a2 a3
      simp only [List.set_set]
      have hstep : stepA (absEs e) q = (absEs e2, ev, bad2) := by
        unfold stepA
        simp only
        rw [← n2]
        simp only [Bool.false_eq_true, if_false]
        rw [← n1, ← a1, ← a2]
      cases bad2 with
      | true =>
        simp only [if_true]
        refine ⟨fun h => by simp at h, fun f h => ?_⟩
        simp only [Option.some.injEq] at h
        exact .inr ⟨h.symm, _, hview, by rw [hstep]⟩
      | false =>
        simp only [Bool.false_eq_true, if_false]
        refine ⟨fun _ => ⟨known_set hk hi, ?_, ?_, ?_, ?_⟩, fun f h => by simp at h⟩
        · have := findPid_set_hit (e' := e2) hfind (by rw [a3, n3, hpid])
          simp only [Nat.sub_zero] at this
          simp only [viewOf, hq0, if_false]
          rw [this, hfind]
          simp only [Option.map_some, hstep]
        · intro pid hne
          rw [viewOf_view, viewOf_view]
          split
          · rfl
          · rw [findPid_set_miss hi hj (by rw [hpid]; exact hne) (a3.trans n3)]
        · simp only [evsOf, hview, hstep]
        · intro a ha
          rw [hview] at ha
          cases ha
          rw [hstep]

theorem evsOf_none (q : Packet) : evsOf none q = [] := rfl

/-- A packet that is dropped. -/
theorem stepped_drop {s : St} (hk : s.Known) (q : Packet) (f : List Buf) (hv : viewOf q.pid s.progs = none) :
    Stepped s q { s with free := f } :=
  ⟨hk, by simp only [hv, Option.map_none], fun _ _ => rfl, by rw [hv, evsOf_none, List.append_nil], fun a ha => by rw [hv] at ha; cases ha⟩

theorem readPacket_step (H : Handler) {s : St} (hk : s.Known) (hf : s.fail = none) (q : Packet) (hq : q.Ok) (b : Buf)
    (hb : b.mem = q.bytes) :
    ∃ s', s.readPacket H b = .ok s' ∧ (s'.fail = none → Stepped s q s') ∧
    (∀ f, s'.fail = some f →
      f = .handler ∨ (f = .pes ∧ ∃ a, viewOf q.pid s.progs = some a ∧ (stepA a q).2.2 = true)) := by
  obtain ⟨n, hn, hd⟩ := readHeader_bytes q hq
  unfold St.readPacket
  rw [hb, hn, Res.bind_ok]
  simp only
  have hlen : q.bytes.length = 188 := hq.size
  rw [hlen]
  have hno : ∀ f, s.fail = some f → f = .handler ∨ (f = .pes ∧ ∃ a, viewOf q.pid s.progs = some a ∧ (stepA a q).2.2 = true) := by
    intro f h
    rw [hf] at h
    cases h
  have hpid : (hdOf q).pid = q.pid := rfl
  rw [hpid]
  split
  · rename_i h0
    rw [St.readPat, if_pos hk.1]
    exact ⟨_, rfl, fun _ => stepped_drop hk q _ (by simp [viewOf, h0]), hno⟩
  · rename_i h0
    cases hfind : findPid q.pid 0 s.progs with
    | none =>
      simp only
      exact ⟨_, rfl, fun _ => stepped_drop hk q _ (by simp [viewOf, hfind]), hno⟩
    | some t =>
      cases t with
      | pmt i p =>
        simp only
        have hin := findPid_some hfind
        have hp : p ∈ s.progs := List.mem_of_getElem? hin.2.1
        rw [St.readPmt, if_pos (hk.2 p hp)]
        exact ⟨_, rfl, fun _ => stepped_drop hk q _ (by simp [viewOf, hfind]), hno⟩
      | es i p j e =>
        simp only
        have := readPes_step H hk hf q (b := { b with mem := q.bytes, pos := n.getD 188 }) hd h0 hfind
        refine ⟨_, rfl, ?_, ?_⟩
        · simpa only [hb] using this.1
        · simpa only [hb] using this.2

theorem getBuf_progs {s s1 : St} {b : Buf} (h : s.getBuf = some (b, s1)) : s1.progs = s.progs := by
  unfold St.getBuf at h
  split at h
  · cases h; rfl
  · split at h
    · cases h; rfl
    · split at h
      · cases h
      · cases h; rfl

/-- Between two packets. -/
structure St.Ready (m : Nat) (s : St) : Prop where
  inv : s.Inv m
  buf : s.buf = none
  fail : s.fail = none
  known : s.Known

theorem packet_step (H : Handler) {m : Nat} {s : St} (hs : s.Ready m) (q : Packet) (hq : q.Ok) :
    ∃ s', s.pushAll H q.bytes = .ok s' ∧ (s'.fail = none → s'.Ready m ∧ Stepped s q s') ∧
    (∀ f, s'.fail = some f →
      f = .memory ∨ f = .handler ∨ (f = .pes ∧ ∃ a, viewOf q.pid s.progs = some a ∧ (stepA a q).2.2 = true)) := by
  obtain ⟨y, ys, hy⟩ : ∃ y ys, q.bytes = y :: ys := ⟨_, _, rfl⟩
  have hlen := hq.size
  cases hg : s.getBuf with
  | none =>
    rw [hy, pushAll_cons H hs.fail]
    simp only [St.push, hg, Res.bind_ok]
    rw [pushAll_fail H (by simp)]
    exact ⟨_, rfl, fun h => by simp at h, fun f h => by simp at h; exact .inl h.symm⟩
  | some r =>
    obtain ⟨b, s1⟩ := r
    obtain ⟨g1, g2, g3, g4, g5, g5', g6, g7⟩ := getBuf_some hs.inv hg
    have hbm : b.mem = [] := by
      unfold St.getBuf at hg
      rw [hs.buf] at hg
      simp only at hg
      split at hg
      · cases hg; rfl
      · split at hg
        · cases hg
        · cases hg; rfl
    have hfirst : s.pushAll H q.bytes = s1.readPacket H { b with mem := q.bytes } := by
      rw [hy, pushAll_cons H hs.fail, push_getBuf H hg g2, ← pushAll_cons H (s := { s1 with buf := some b }) (g3.trans hs.fail),
        push_fill H ys y g2 (g3.trans hs.fail) (by rw [hy] at hlen; simp only [List.length_cons] at hlen; rw [hbm]; simp [packetSize]; omega)]
      rw [hy] at hlen
      simp only [List.length_cons] at hlen
      rw [hbm, if_pos (by simp [packetSize]; omega)]
      rfl
    rw [hfirst]
    have hk1 : s1.Known := by
      unfold St.Known
      rw [getBuf_progs hg]
      exact hs.known
    obtain ⟨s', h1, h2, h3⟩ := readPacket_step H hk1 (g3.trans hs.fail) q hq { b with mem := q.bytes } rfl
    obtain ⟨s'', i1, i2⟩ := packet_inv H (b := { b with mem := q.bytes }) g1 hlen g6
      (fun k => by rw [cnt_id k ({ b with mem := q.bytes } : Buf) b rfl]; exact g7 k) g2
    rw [h1] at i1
    cases i1
    rw [getBuf_progs hg] at h3
    refine ⟨s', h1, fun hf => ?_, fun f hf => .inr (h3 f hf)⟩
    obtain ⟨k1, k2, k3, k4, k5⟩ := h2 hf
    rw [getBuf_progs hg] at k2 k3 k4 k5
    rw [g5'] at k4
    exact ⟨⟨(i2 hf).1, (i2 hf).2, hf, k1⟩, k1, k2, k3, k4, k5⟩

/-! ## Packets -/

/-- Whether an event is of a stream. -/
def Event.ofPid (pid : Nat) : Event → Bool
  | .pes p .. => p = pid
  | _ => false

theorem flushA_ev {a : A} {pts dts : Nat} {c : Bool} {ev : Event} (h : flushA a = .done pts dts c (some ev)) : ∃ sid br,
    ev = .pes a.pid sid pts dts a.rand br := by
  unfold flushA at h
  split at h
  · cases h
  · cases h
  · split at h
    · cases h
    · split at h
      · cases h
      · cases h
      · simp only at h
        split at h
        · cases h
        · simp only [Flush.done.injEq, Option.some.injEq] at h
          obtain ⟨rfl, rfl, _, rfl⟩ := h
          exact ⟨_, _, rfl⟩

theorem nextA_ev {a : A} {st : Bool} {ev : Event} (h : (nextA a st).2.1 = some ev) : ev.ofPid a.pid = true := by
  unfold nextA at h
  split at h
  · split at h
    · cases h
    · cases h
    · rename_i hfl
      simp only at h
      subst h
      obtain ⟨sid, br, rfl⟩ := flushA_ev hfl
      simp [Event.ofPid]
  · cases h

theorem stepA_ev {a : A} {q : Packet} {ev : Event} (h : ev ∈ (stepA a q).2.1.toList) : ev.ofPid a.pid = true := by
  simp only [Option.mem_toList] at h
  unfold stepA at h
  simp only at h
  split at h
  · exact nextA_ev h
  · exact nextA_ev h

theorem ofPid_inj {ev : Event} {a b : Nat} (h : ev.ofPid a = true) : ev.ofPid b = decide (a = b) := by
  cases ev with
  | pes p =>
    simp only [Event.ofPid, decide_eq_true_eq] at h ⊢
    subst h
    rfl
  | _ => simp [Event.ofPid] at h

theorem filter_evs {s : St} (q : Packet) (pid : Nat) :
    (evsOf (viewOf q.pid s.progs) q).filter (Event.ofPid pid) =
      if pid = q.pid then evsOf (viewOf q.pid s.progs) q else [] := by
  cases hv : viewOf q.pid s.progs with
  | none => simp [evsOf]
  | some a =>
    have ha := viewOf_pid hv
    simp only [evsOf]
    have hall : ∀ ev ∈ (stepA a q).2.1.toList, ev.ofPid pid = decide (pid = q.pid) := by
      intro ev hev
      rw [ofPid_inj (stepA_ev hev), ha]
      exact decide_eq_decide.mpr eq_comm
    split
    · rename_i h
      rw [List.filter_eq_self]
      intro ev hev
      rw [hall ev hev]
      simpa using h
    · rename_i h
      rw [List.filter_eq_nil_iff]
      intro ev hev
      rw [hall ev hev]
      simpa using h

/-- The packets of a stream. -/
def ofStream (pid : Nat) (qs : List Packet) : List Packet := qs.filter fun q => q.pid = pid

/-- The bytes of packets. -/
def bytesOf (qs : List Packet) : List UInt8 := (qs.map Packet.bytes).flatten

theorem runA_cons {a : A} {q : Packet} (qs : List Packet) (h : (stepA a q).2.2 = false) :
    runA a (q :: qs) = ((runA (stepA a q).1 qs).1, (stepA a q).2.1.toList ++ (runA (stepA a q).1 qs).2.1,
      (runA (stepA a q).1 qs).2.2) := by
  simp only [runA, h, Bool.false_eq_true, if_false]

theorem runA_bad {a : A} {q : Packet} (qs : List Packet) (h : (stepA a q).2.2 = true) : (runA a (q :: qs)).2.2 = true := by
  simp only [runA, h, if_true]

/-- What packets do when the tables are known. -/
structure Ran (s : St) (qs : List Packet) (s' : St) : Prop where
  view : ∀ pid, viewOf pid s'.progs = (viewOf pid s.progs).map fun a => (runA a (ofStream pid qs)).1
  log : ∀ pid, s'.log.filter (Event.ofPid pid) = s.log.filter (Event.ofPid pid) ++
    match viewOf pid s.progs with
    | none => []
    | some a => (runA a (ofStream pid qs)).2.1
  good : ∀ pid a, viewOf pid s.progs = some a → (runA a (ofStream pid qs)).2.2 = false

theorem packets_run (H : Handler) {m : Nat} (qs : List Packet) {s : St} (hs : s.Ready m) (hq : ∀ q ∈ qs, q.Ok) :
    ∃ s', s.pushAll H (bytesOf qs) = .ok s' ∧ (s'.fail = none → s'.Ready m ∧ Ran s qs s') ∧
    (∀ f, s'.fail = some f →
      f = .memory ∨ f = .handler ∨
      (f = .pes ∧ ∃ pid a n, viewOf pid s.progs = some a ∧ (runA a (ofStream pid (qs.take n))).2.2 = true)) := by
  induction qs generalizing s with
  | nil =>
    refine ⟨s, rfl, fun _ => ⟨hs, fun pid => ?_, fun pid => ?_, fun pid a _ => rfl⟩, fun f h => ?_⟩
    · cases viewOf pid s.progs <;> rfl
    · cases viewOf pid s.progs <;> simp [ofStream, runA]
    · rw [hs.fail] at h
      cases h
  | cons q qs ih =>
    obtain ⟨s1, h1, h2, h3⟩ := packet_step H hs q (hq q (by simp))
    have hb : bytesOf (q :: qs) = q.bytes ++ bytesOf qs := by simp [bytesOf]
    rw [hb, pushAll_append, h1, Res.bind_ok]
    by_cases hf : s1.fail = none
    · obtain ⟨r1, r2⟩ := h2 hf
      obtain ⟨s', i1, i2, i3⟩ := ih r1 fun x hx => hq x (by simp [hx])
      refine ⟨s', i1, fun hf' => ?_, fun f hf' => ?_⟩
      · obtain ⟨j1, j2⟩ := i2 hf'
        refine ⟨j1, fun pid => ?_, fun pid => ?_, fun pid a ha => ?_⟩
        · rw [j2.view pid]
          by_cases hp : pid = q.pid
          · subst hp
            rw [r2.same]
            cases hv : viewOf q.pid s.progs with
            | none => rfl
            | some a =>
              simp only [Option.map_some, ofStream, List.filter_cons, decide_true, if_true]
              rw [runA_cons _ (r2.good a hv)]
          · rw [r2.other pid hp]
            have : ¬ q.pid = pid := fun h => hp h.symm
            simp only [ofStream, List.filter_cons, this, decide_false, Bool.false_eq_true, if_false]
        · rw [j2.log pid, r2.log, List.filter_append, filter_evs, List.append_assoc]
          congr 1
          by_cases hp : pid = q.pid
          · subst hp
            rw [r2.same]
            cases hv : viewOf q.pid s.progs with
            | none => simp [evsOf]
            | some a =>
              simp only [Option.map_some, ofStream, List.filter_cons, decide_true, if_true]
              rw [runA_cons _ (r2.good a hv)]
              rfl
          · rw [r2.other pid hp, if_neg hp]
            have : ¬ q.pid = pid := fun h => hp h.symm
            simp only [ofStream, List.filter_cons, this, decide_false, Bool.false_eq_true, if_false, List.nil_append]
        · by_cases hp : pid = q.pid
          · subst hp
            have hv : viewOf q.pid s1.progs = some (stepA a q).1 := by rw [r2.same, ha]; rfl
            have := j2.good _ _ hv
            simp only [ofStream, List.filter_cons, decide_true, if_true]
            rw [runA_cons _ (r2.good a ha)]
            exact this
          · have hv : viewOf pid s1.progs = some a := by rw [r2.other pid hp, ha]
            have := j2.good _ _ hv
            have hne : ¬ q.pid = pid := fun h => hp h.symm
            simp only [ofStream, List.filter_cons, hne, decide_false, Bool.false_eq_true, if_false]
            exact this
      · rcases i3 f hf' with h | h | ⟨h, pid, a, n, ha, hbad⟩
        · exact .inl h
        · exact .inr (.inl h)
        · refine .inr (.inr ⟨h, pid, ?_⟩)
          by_cases hp : pid = q.pid
          · subst hp
            rw [r2.same] at ha
            cases hv : viewOf q.pid s.progs with
            | none => rw [hv] at ha; cases ha
            | some a0 =>
              rw [hv] at ha
              simp only [Option.map_some, Option.some.injEq] at ha
              subst ha
              refine ⟨a0, n + 1, rfl, ?_⟩
              simp only [List.take_succ_cons, ofStream, List.filter_cons, decide_true, if_true]
              rw [runA_cons _ (r2.good a0 hv)]
              exact hbad
          · rw [r2.other pid hp] at ha
            have hne : ¬ q.pid = pid := fun h => hp h.symm
            refine ⟨a, n + 1, ha, ?_⟩
            simp only [List.take_succ_cons, ofStream, List.filter_cons, hne, decide_false, Bool.false_eq_true, if_false]
            exact hbad
    · obtain ⟨f0, hf0⟩ := Option.ne_none_iff_exists'.mp hf
      rw [pushAll_fail H (by simp [hf0])]
      refine ⟨s1, rfl, fun h => absurd h hf, fun f hf' => ?_⟩
      rcases h3 f hf' with h | h | ⟨h, a, ha, hbad⟩
      · exact .inl h
      · exact .inr (.inl h)
      · refine .inr (.inr ⟨h, q.pid, a, 1, ha, ?_⟩)
        simp only [List.take_succ_cons, List.take_zero, ofStream, List.filter_cons, decide_true, if_true]
        exact runA_bad _ hbad

end Verif.Ts
