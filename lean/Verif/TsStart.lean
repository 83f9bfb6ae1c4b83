import Verif.TsTable

/-!
# MPEG-TS: the start of a connection

C77: the tables are read as they were sent, and after them the streams are ready.
-/

namespace Verif.Ts

open TsSpec (Packet Pes Section Pmt)

/-- Between two packets. -/
structure St.Rest (m : Nat) (s : St) : Prop where
  inv : s.Inv m
  buf : s.buf = none
  fail : s.fail = none

theorem getBuf_parts {s s1 : St} {b : Buf} (h : s.getBuf = some (b, s1)) :
    s1.progs = s.progs ∧ s1.bufs = s.bufs ∧ s1.log = s.log ∧ s1.fail = s.fail := by
  unfold St.getBuf at h
  split at h
  · cases h; exact ⟨rfl, rfl, rfl, rfl⟩
  · split at h
    · cases h; exact ⟨rfl, rfl, rfl, rfl⟩
    · split at h
      · cases h
      · cases h; exact ⟨rfl, rfl, rfl, rfl⟩

/-- A packet is read into a buffer, if there is one. -/
theorem packet_read (H : Handler) {m : Nat} {s : St} (hs : s.Rest m) (q : Packet) (hq : q.Ok) :
    (∃ s', s.pushAll H q.bytes = .ok s' ∧ s'.fail = some .memory) ∨
    ∃ (s1 : St) (b : Buf) (s' : St), s1.progs = s.progs ∧ s1.bufs = s.bufs ∧ s1.log = s.log ∧ s1.fail = none ∧ b.mem = q.bytes ∧
      s.pushAll H q.bytes = s1.readPacket H b ∧ s1.readPacket H b = .ok s' ∧ (s'.fail = none → s'.Rest m) := by
  obtain ⟨y, ys, hy⟩ : ∃ y ys, q.bytes = y :: ys := ⟨_, _, rfl⟩
  have hlen := hq.size
  cases hg : s.getBuf with
  | none =>
    left
    rw [hy, pushAll_cons H hs.fail]
    simp only [St.push, hg, Res.bind_ok]
    rw [pushAll_fail H (by simp)]
    exact ⟨_, rfl, rfl⟩
  | some r =>
    right
    obtain ⟨b, s1⟩ := r
    obtain ⟨g1, g2, g3, g4, g5, g5', g6, g7⟩ := getBuf_some hs.inv hg
    have hbm : b.mem = [] := by
      unfold St.getBuf at hg
      rw [hs.buf] at hg
      simp only at hg
      split at hg
      · cases hg; rfl
      · split at hg
        · cases hg
        · cases hg; rfl
    have hfirst : s.pushAll H q.bytes = s1.readPacket H { b with mem := q.bytes } := by
      rw [hy, pushAll_cons H hs.fail, push_getBuf H hg g2, ← pushAll_cons H (s := { s1 with buf := some b }) (g3.trans hs.fail),
        push_fill H ys y g2 (g3.trans hs.fail) (by rw [hy] at hlen; simp only [List.length_cons] at hlen; rw [hbm]; simp [packetSize]; omega)]
      rw [hy] at hlen
      simp only [List.length_cons] at hlen
      rw [hbm, if_pos (by simp [packetSize]; omega)]
      rfl
    obtain ⟨p1, p2, p3, p4⟩ := getBuf_parts hg
    obtain ⟨s', i1, i2⟩ := packet_inv H (b := { b with mem := q.bytes }) g1 hlen g6
      (fun k => by rw [cnt_id k ({ b with mem := q.bytes } : Buf) b rfl]; exact g7 k) g2
    exact ⟨s1, _, s', p1, p2, p3, p4.trans hs.fail, rfl, hfirst, i1, fun hf => ⟨(i2 hf).1, (i2 hf).2, hf⟩⟩

/-- Packets, when each is read. -/
theorem bytesOf_cons (q : Packet) (qs : List Packet) : bytesOf (q :: qs) = q.bytes ++ bytesOf qs := by simp [bytesOf]

/-! ## The program association table -/

/-- The state after the table was read. -/
structure PatDone (m : Nat) (s : St) (ps : List (Nat × Nat)) (s' : St) : Prop where
  rest : s'.Rest m
  progs : s'.progs = ps.map fun p : Nat × Nat => ({ number := p.1, pid := p.2 } : Prog)
  log : s'.log = s.log ++ [.pat ps]

/-- The state while the table is read: `ch` is what there is of it. -/
structure PatPart (m : Nat) (s : St) (ch : Br) (s' : St) : Prop where
  rest : s'.Rest m
  progs : s'.progs = []
  chain : chain s'.bufs = ch
  log : s'.log = s.log

theorem pat_packet (H : Handler) {m : Nat} {s s0 : St} {ch : Br} (hs : PatPart m s0 ch s) (q : Packet) (hq : q.Ok) (hp : q.pid = 0)
    {whole : List UInt8} {need : Nat} {ps : List (Nat × Nat)} (hparse : Parses parsePat whole need ps)
    (hpre : (appendA q.start ch q.payload).flatten <+: whole) :
    ∃ s', s.pushAll H q.bytes = .ok s' ∧ (∀ f, s'.fail = some f → f = .memory ∨ f = .handler) ∧
      (s'.fail = none → (((appendA q.start ch q.payload).flatten.length < need ∧ PatPart m s0 (appendA q.start ch q.payload) s') ∨
        (need ≤ (appendA q.start ch q.payload).flatten.length ∧ PatDone m s0 ps s'))) := by
  rcases packet_read H hs.rest q hq with ⟨s', h1, h2⟩ | ⟨s1, b, s', e1, e2, e3, e4, e5, e6, e7, e8⟩
  · exact ⟨s', h1, fun f hf => by rw [h2] at hf; cases hf; exact .inl rfl, fun hf => by rw [h2] at hf; cases hf⟩
  · refine ⟨s', e6.trans e7, ?_⟩
    obtain ⟨n, hn, hd⟩ := readHeader_bytes q hq
    unfold St.readPacket at e7
    rw [e5, hn, Res.bind_ok] at e7
    simp only [show (hdOf q).pid = q.pid from rfl, hp, if_true] at e7
    rw [hq.size] at e7
    have hch := appendBuf_abs (hdOf q) s1.bufs s1.free { b with mem := q.bytes, pos := n.getD 188 } q rfl hd
    rw [e2, hs.chain] at hch
    have hpr : s1.progs = [] := e1.trans hs.progs
    unfold St.readPat at e7
    rw [if_neg (by simp [hpr])] at e7
    simp only [← e2] at e7 hch
    generalize appendBuf (hdOf q) s1.bufs s1.free { b with mem := q.bytes, pos := n.getD 188 } = ab at *
    simp only [hch] at e7
    obtain ⟨pa, pb⟩ := hparse _ hpre
    by_cases hl : (appendA q.start ch q.payload).flatten.length < need
    · rw [pa hl, Res.bind_ok] at e7
      simp only [Res.ok.injEq] at e7
      subst e7
      refine ⟨fun f hf => ?_, fun hf => .inl ⟨hl, e8 hf, hpr, hch, e3.trans hs.log⟩⟩
      have : s1.fail = some f := hf
      rw [e4] at this
      cases this
    · rw [pb (by omega), Res.bind_ok] at e7
      simp only [St.run] at e7
      by_cases hH : H (s1.log ++ [Event.pat ps]) = true
      · simp only [hH, if_true, e4, Option.isSome_none, Bool.false_eq_true, if_false, Res.ok.injEq] at e7
        subst e7
        refine ⟨(fun f hf => by cases hf), fun hf => .inr ⟨by omega, e8 hf, rfl, ?_⟩⟩
        simp only [e3, hs.log]
      · simp only [hH, Bool.false_eq_true, if_false, Option.isSome_some, if_true, Res.ok.injEq] at e7
        subst e7
        exact ⟨fun f hf => by cases hf; exact .inr rfl, fun hf => by cases hf⟩

/-- What one packet of a table does. -/
def TableStep (H : Handler) (pid : Nat) (whole : List UInt8) (need : Nat) (Part : Br → St → Prop) (Done : St → Prop) : Prop :=
  ∀ (s : St) (ch : Br) (q : Packet), Part ch s → q.Ok → q.pid = pid → (appendA q.start ch q.payload).flatten <+: whole →
    ∃ s', s.pushAll H q.bytes = .ok s' ∧ (∀ f, s'.fail = some f → f = .memory ∨ f = .handler) ∧
      (s'.fail = none → (((appendA q.start ch q.payload).flatten.length < need ∧ Part (appendA q.start ch q.payload) s') ∨
        (need ≤ (appendA q.start ch q.payload).flatten.length ∧ Done s')))

theorem table_more {H : Handler} {pid : Nat} {whole : List UInt8} {need : Nat} {Part : Br → St → Prop} {Done : St → Prop}
    (hstep : TableStep H pid whole need Part Done) (t : List Packet) {s : St} {ch : Br} (hs : Part ch s) (hne : ch ≠ [])
    (hq : ∀ q ∈ t, q.Ok ∧ q.pid = pid ∧ q.start = false)
    (hpre : (ch ++ t.map Packet.payload).flatten <+: whole)
    (hlast : t ≠ [] → (ch ++ t.dropLast.map Packet.payload).flatten.length < need)
    (hneed : need ≤ (ch ++ t.map Packet.payload).flatten.length) (hopen : ch.flatten.length < need) :
    ∃ s', s.pushAll H (bytesOf t) = .ok s' ∧ (∀ f, s'.fail = some f → f = .memory ∨ f = .handler) ∧
      (s'.fail = none → Done s') := by
  induction t generalizing s ch with
  | nil =>
    simp only [List.map_nil, List.append_nil] at hneed
    omega
  | cons q t ih =>
    obtain ⟨q1, q2, q3⟩ := hq q (by simp)
    have happ : appendA q.start ch q.payload = ch ++ [q.payload] := by simp [appendA, q3, hne]
    have hp1 : (ch ++ [q.payload]).flatten <+: whole := by
      refine List.IsPrefix.trans ?_ hpre
      simp only [List.map_cons, List.flatten_append, List.flatten_cons, List.flatten_nil, List.append_nil]
      rw [← List.append_assoc]
      exact List.prefix_append _ _
    obtain ⟨s1, h1, h2, h3⟩ := hstep s ch q hs q1 q2 (by rw [happ]; exact hp1)
    rw [happ] at h3
    rw [bytesOf_cons, pushAll_append, h1, Res.bind_ok]
    by_cases hf : s1.fail = none
    · rcases h3 hf with ⟨k1, k2⟩ | ⟨k1, k2⟩
      · cases t with
        | nil =>
          simp only [List.map_cons, List.map_nil] at hneed
          omega
        | cons q' t =>
          refine ih k2 (by simp) (fun x hx => hq x (by simp [hx])) (by simpa using hpre) ?_ (by simpa using hneed) k1
          intro _
          have := hlast (by simp)
          rw [List.dropLast_cons_cons] at this
          simpa using this
      · cases t with
        | nil => exact ⟨s1, by simp [bytesOf, St.pushAll], h2, fun _ => k2⟩
        | cons q' t =>
          exfalso
          have := hlast (by simp)
          rw [List.dropLast_cons_cons, List.map_cons] at this
          simp only [List.flatten_append, List.flatten_cons, List.length_append, List.flatten_nil, List.append_nil] at this k1
          omega
    · obtain ⟨f0, hf0⟩ := Option.ne_none_iff_exists'.mp hf
      rw [pushAll_fail H (by simp [hf0])]
      exact ⟨s1, rfl, h2, fun h => absurd h hf⟩

theorem table_run {H : Handler} {pid : Nat} {whole : List UInt8} {need : Nat} {Part : Br → St → Prop} {Done : St → Prop}
    (hstep : TableStep H pid whole need Part Done) {qs : List Packet} (hq : TsSpec.Brings pid whole need qs) (hneed : need ≤ whole.length)
    {s : St} {ch : Br} (hs : Part ch s) :
    ∃ s', s.pushAll H (bytesOf qs) = .ok s' ∧ (∀ f, s'.fail = some f → f = .memory ∨ f = .handler) ∧
      (s'.fail = none → Done s') := by
  obtain ⟨hok, ⟨q, t, rfl, hst, ht⟩, hb, hl⟩ := hq
  obtain ⟨q1, q2⟩ := hok q (by simp)
  have happ : appendA q.start ch q.payload = [q.payload] := by
    by_cases h : ch = [] <;> simp [appendA, hst, h]
  have hp1 : ([q.payload] : Br).flatten <+: whole := by
    rw [← hb]
    simp
  obtain ⟨s1, h1, h2, h3⟩ := hstep s ch q hs q1 q2 (by rw [happ]; exact hp1)
  rw [happ] at h3
  rw [bytesOf_cons, pushAll_append, h1, Res.bind_ok]
  have hb' : ([q.payload] ++ t.map Packet.payload).flatten = whole := by
    rw [← hb]
    rfl
  by_cases hf : s1.fail = none
  · rcases h3 hf with ⟨k1, k2⟩ | ⟨k1, k2⟩
    · refine table_more hstep t k2 (by simp) (fun x hx => ⟨(hok x (by simp [hx])).1, (hok x (by simp [hx])).2, ht x hx⟩)
        (by rw [hb']; exact List.prefix_refl _) (fun hne => ?_) (by rw [hb']; exact hneed) k1
      cases t with
      | nil => exact absurd rfl hne
      | cons q' t =>
        rw [List.dropLast_cons_cons] at hl
        simpa using hl
    · cases t with
      | nil => exact ⟨s1, by simp [bytesOf, St.pushAll], h2, fun _ => k2⟩
      | cons q' t =>
        exfalso
        rw [List.dropLast_cons_cons, List.map_cons] at hl
        simp only [List.flatten_cons, List.length_append, List.flatten_nil, List.append_nil] at hl k1
        omega
  · obtain ⟨f0, hf0⟩ := Option.ne_none_iff_exists'.mp hf
    rw [pushAll_fail H (by simp [hf0])]
    exact ⟨s1, rfl, h2, fun h => absurd h hf⟩

/-! ## A program map table -/

/-- The streams of a table, of which no packet was received. -/
def newEs (es : List (Nat × Nat × List UInt8)) : List Es :=
  es.map fun e : Nat × Nat × List UInt8 => ({ type := e.1, pid := e.2.1, info := e.2.2 } : Es)

/-- The state while the table of the program `p` is read. -/
structure PmtPart (m : Nat) (before after : List Prog) (p : Prog) (log : List Event) (ch : Br) (s : St) : Prop where
  rest : s.Rest m
  progs : ∃ bufs, s.progs = before ++ { p with bufs := bufs } :: after ∧ chain bufs = ch
  log : s.log = log

/-- The state after it. -/
structure PmtDone (m : Nat) (before after : List Prog) (p : Prog) (log : List Event) (t : Pmt) (s : St) : Prop where
  rest : s.Rest m
  progs : s.progs = before ++ { p with pcrPid := t.pcr, es := newEs t.streams, bufs := [] } :: after
  log : s.log = log ++ [.pmt p.number t.streams]

theorem findPid_pmt {pid : Nat} {before after : List Prog} {p : Prog} (hp : pid = p.pid)
    (h : ∀ b ∈ before, b.pid ≠ pid ∧ ∀ e ∈ b.es, e.pid ≠ pid) (i : Nat) :
    findPid pid i (before ++ p :: after) = some (.pmt (i + before.length) p) := by
  induction before generalizing i with
  | nil => simp [findPid, hp]
  | cons b before ih =>
    obtain ⟨h1, h2⟩ := h b (by simp)
    have he : ∀ (j : Nat) (es : List Es), (∀ e ∈ es, e.pid ≠ pid) → findEs pid j es = none := by
      intro j es
      induction es generalizing j with
      | nil => intro _; rfl
      | cons e es ih =>
        intro h
        rw [findEs, if_neg (fun hh => h e (by simp) hh.symm)]
        exact ih _ fun e he => h e (by simp [he])
    rw [List.cons_append, findPid, if_neg (fun hh => h1 hh.symm), he 0 b.es h2]
    simp only
    rw [ih (fun b hb => h b (by simp [hb]))]
    simp only [List.length_cons]
    congr 2
    omega

theorem set_middle {α : Type} (a : List α) (x y : α) (b : List α) : (a ++ x :: b).set a.length y = a ++ y :: b := by
  simp

theorem pmt_step (H : Handler) {m : Nat} {before after : List Prog} {p : Prog} {log : List Event} (hpe : p.es = [])
    (hp0 : p.pid ≠ 0) (hb : ∀ b ∈ before, b.pid ≠ p.pid ∧ ∀ e ∈ b.es, e.pid ≠ p.pid) {whole : List UInt8} {need : Nat} {t : Pmt}
    (hparse : Parses parsePmt whole need (t.pcr, t.streams)) :
    TableStep H p.pid whole need (PmtPart m before after p log) (PmtDone m before after p log t) := by
  intro s ch q hs hq hqp hpre
  rcases packet_read H hs.rest q hq with ⟨s', h1, h2⟩ | ⟨s1, b, s', e1, e2, e3, e4, e5, e6, e7, e8⟩
  · exact ⟨s', h1, fun f hf => by rw [h2] at hf; cases hf; exact .inl rfl, fun hf => by rw [h2] at hf; cases hf⟩
  · refine ⟨s', e6.trans e7, ?_⟩
    obtain ⟨n, hn, hd⟩ := readHeader_bytes q hq
    obtain ⟨bufs, hprogs, hchain⟩ := hs.progs
    have hfind : findPid q.pid 0 s1.progs = some (.pmt before.length { p with bufs := bufs }) := by
      rw [e1, hprogs, findPid_pmt (p := { p with bufs := bufs }) hqp (fun b hb' => by rw [hqp]; exact hb b hb'), Nat.zero_add]
    unfold St.readPacket at e7
    rw [e5, hn, Res.bind_ok] at e7
    simp only [show (hdOf q).pid = q.pid from rfl] at e7
    rw [if_neg (by rw [hqp]; exact hp0), hfind] at e7
    rw [hq.size] at e7
    have hch := appendBuf_abs (hdOf q) bufs s1.free { b with mem := q.bytes, pos := n.getD 188 } q rfl hd
    rw [hchain] at hch
    simp only [St.readPmt] at e7
    rw [if_neg (by simp [hpe])] at e7
    generalize appendBuf (hdOf q) bufs s1.free { b with mem := q.bytes, pos := n.getD 188 } = ab at *
    simp only [hch] at e7
    obtain ⟨pa, pb⟩ := hparse _ hpre
    by_cases hl : (appendA q.start ch q.payload).flatten.length < need
    · rw [pa hl, Res.bind_ok] at e7
      simp only [Res.ok.injEq] at e7
      subst e7
      refine ⟨fun f hf => ?_, fun hf => .inl ⟨hl, e8 hf, ⟨ab.1, ?_, hch⟩, e3.trans hs.log⟩⟩
      · have : s1.fail = some f := hf
        rw [e4] at this
        cases this
      · simp only [St.setProg, e1, hprogs, set_middle]
    · rw [pb (by omega), Res.bind_ok] at e7
      simp only [St.run] at e7
      by_cases hH : H (s1.log ++ [Event.pmt p.number t.streams]) = true
      · simp only [hH, if_true, e4, Option.isSome_none, Bool.false_eq_true, if_false, Res.ok.injEq, St.setProg] at e7
        subst e7
        refine ⟨(fun f hf => by cases hf), fun hf => .inr ⟨by omega, e8 hf, ?_, ?_⟩⟩
        · simp only [e1, hprogs, set_middle]
          rfl
        · simp only [e3, hs.log]
      · simp only [hH, Bool.false_eq_true, if_false, Option.isSome_some, if_true, Res.ok.injEq, St.setProg] at e7
        subst e7
        exact ⟨fun f hf => by cases hf; exact .inr rfl, fun hf => by cases hf⟩

/-! ## C77 -/

/-- A program as it is sent: its number, the pid of its table, the table, the section, and the packets that carry it. -/
structure Program where
  number : Nat
  pid : Nat
  pmt : Pmt
  sect : Section
  packets : List Packet

/-- A program whose table can be read: it has streams, and its pid is its own. -/
structure Program.Ok (p : Program) : Prop where
  number : 0 < p.number ∧ p.number < 65536
  pid : 0 < p.pid ∧ p.pid < 8192
  sect : p.sect.Ok p.pmt.data
  pmt : p.pmt.Ok
  streams : p.pmt.streams ≠ []
  brings : TsSpec.Brings p.pid (p.sect.bytes p.pmt.data) (p.sect.size p.pmt.data) p.packets

/-- The pids of programs are different, and those of the tables are not those of streams of programs before. -/
def Apart : List Program → Prop
  | [] => True
  | p :: ps => (∀ q ∈ ps, p.pid ≠ q.pid ∧ ∀ e ∈ p.pmt.streams, e.2.1 ≠ q.pid) ∧ Apart ps

/-- A program that is known. -/
def Program.known (p : Program) : Prog :=
  { number := p.number, pid := p.pid, pcrPid := p.pmt.pcr, es := newEs p.pmt.streams, bufs := [] }

/-- A program that is not known yet. -/
def Program.unknown (p : Program) : Prog := { number := p.number, pid := p.pid }

theorem size_le {x : Section} {data : List UInt8} (h : x.Ok data) : x.size data ≤ (x.bytes data).length := by
  simp only [TsSpec.Section.size, TsSpec.Section.bytes, List.length_append, TsSpec.be16, List.length_cons, List.length_nil, h.five, h.crc]
  omega

/-- The tables of the programs, one after the other. -/
theorem pmts_run (H : Handler) {m : Nat} (ps : List Program) (before : List Program) (hp : ∀ p ∈ ps, p.Ok) (ha : Apart (before ++ ps)) {s : St}
    (hs : s.Rest m) (hprogs : s.progs = before.map Program.known ++ ps.map Program.unknown) :
    ∃ s', s.pushAll H (bytesOf (ps.flatMap Program.packets)) = .ok s' ∧ (∀ f, s'.fail = some f → f = .memory ∨ f = .handler) ∧
      (s'.fail = none → s'.Rest m ∧ s'.progs = (before ++ ps).map Program.known ∧
        s'.log = s.log ++ ps.map fun p => .pmt p.number p.pmt.streams) := by
  induction ps generalizing before s with
  | nil =>
    refine ⟨s, rfl, fun f hf => ?_, fun _ => ⟨hs, by simpa using hprogs, by simp⟩⟩
    rw [hs.fail] at hf
    cases hf
  | cons p ps ih =>
    have hpo := hp p (by simp)
    have hb : ∀ b ∈ before.map Program.known, b.pid ≠ p.unknown.pid ∧ ∀ e ∈ b.es, e.pid ≠ p.unknown.pid := by
      clear ih hprogs
      induction before with
      | nil => simp
      | cons b0 before ih =>
        obtain ⟨a1, a2⟩ := ha
        intro b hb
        rw [List.map_cons, List.mem_cons] at hb
        rcases hb with rfl | hb
        · obtain ⟨c1, c2⟩ := a1 p (by simp)
          refine ⟨c1, fun e he => ?_⟩
          simp only [Program.known, newEs, List.mem_map] at he
          obtain ⟨x, hx, rfl⟩ := he
          exact c2 x hx
        · exact ih a2 b hb
    have hpart : PmtPart m (before.map Program.known) (ps.map Program.unknown) p.unknown s.log [] s :=
      ⟨hs, ⟨[], by rw [hprogs]; rfl, rfl⟩, rfl⟩
    obtain ⟨s1, h1, h2, h3⟩ := table_run (pmt_step H (m := m) (log := s.log) (p := p.unknown) rfl
      (by have := hpo.pid.1; simp only [Program.unknown]; omega) hb
      (parsePmt_bytes p.sect p.pmt hpo.sect hpo.pmt)) hpo.brings (size_le hpo.sect) hpart
    have hbytes : bytesOf ((p :: ps).flatMap Program.packets) = bytesOf p.packets ++ bytesOf (ps.flatMap Program.packets) := by
      simp [bytesOf]
    rw [hbytes, pushAll_append, h1, Res.bind_ok]
    by_cases hf : s1.fail = none
    · obtain ⟨d1, d2, d3⟩ := h3 hf
      obtain ⟨s', k1, k2, k3⟩ := ih (before ++ [p]) (fun x hx => hp x (by simp [hx])) (by simpa using ha) d1 (by
        rw [d2, List.map_append, List.append_assoc]
        rfl)
      refine ⟨s', k1, k2, fun hf' => ?_⟩
      obtain ⟨g1, g2, g3⟩ := k3 hf'
      refine ⟨g1, by simpa using g2, ?_⟩
      rw [g3, d3]
      simp [Program.unknown]
    · obtain ⟨f0, hf0⟩ := Option.ne_none_iff_exists'.mp hf
      rw [pushAll_fail H (by simp [hf0])]
      exact ⟨s1, rfl, h2, fun h => absurd h hf⟩

theorem findEs_mem {pid j : Nat} {es : List Es} {k : Nat} {e : Es} (h : findEs pid j es = some (k, e)) : e ∈ es :=
  List.mem_of_getElem? (findEs_some h).2.1

theorem known_new {ps : List Program} {pid : Nat} {a : A} (h : viewOf pid (ps.map Program.known) = some a) : a = A.new pid := by
  have hp := viewOf_pid h
  unfold viewOf at h
  split at h
  · cases h
  · split at h
    · rename_i i p j e hf
      cases h
      obtain ⟨_, h1, h2, _⟩ := findPid_some hf
      have hm := List.mem_of_getElem? h1
      obtain ⟨x, _, rfl⟩ := List.mem_map.mp hm
      have he := List.mem_of_getElem? h2
      simp only [Program.known, newEs, List.mem_map] at he
      obtain ⟨y, _, rfl⟩ := he
      simp only [absEs] at hp
      subst hp
      rfl
    · cases h

/-- C77: a stream that starts with its program association table and the program map tables of all its programs, each over any number
of packets and in whatever pieces the bytes come, is announced as it was sent: the numbers and pids of the programs, and the types, pids
and descriptors of their streams, in their order. -/
theorem tables_are_read_as_sent (H : Handler) (memLimit : Nat) (calls : List (List (List UInt8))) (sect : Section) (nit : List (Nat × Nat))
    (ps : List Program) (pat : List Packet) (hnit : ∀ p ∈ nit, p.1 = 0 ∧ p.2 < 8192) (hps : ∀ p ∈ ps, p.Ok) (hne : ps ≠ []) (ha : Apart ps)
    (hsect : sect.Ok (TsSpec.patData (nit ++ ps.map fun p => (p.number, p.pid))))
    (hpat : TsSpec.Brings 0 (sect.bytes (TsSpec.patData (nit ++ ps.map fun p => (p.number, p.pid))))
      (sect.size (TsSpec.patData (nit ++ ps.map fun p => (p.number, p.pid)))) pat)
    (hcalls : calls.flatten.flatten = bytesOf (pat ++ ps.flatMap Program.packets)) :
    ∃ s, (St.init memLimit).session H calls = .ok s ∧ (∀ f, s.fail = some f → f = .memory ∨ f = .handler) ∧
      (s.fail = none → s.buf = none ∧ s.Known ∧ (∀ pid a, viewOf pid s.progs = some a → a = A.new pid) ∧
        s.log = .pat (ps.map fun p => (p.number, p.pid)) :: ps.map fun p => .pmt p.number p.pmt.streams) := by
  rw [session_push H calls (fun _ => init_inv memLimit), hcalls]
  have hbytes : bytesOf (pat ++ ps.flatMap Program.packets) = bytesOf pat ++ bytesOf (ps.flatMap Program.packets) := by
    simp [bytesOf]
  rw [hbytes, pushAll_append]
  have hrange : ∀ p ∈ nit ++ ps.map (fun p => (p.number, p.pid)), p.1 < 65536 ∧ p.2 < 8192 := by
    intro p hp
    rcases List.mem_append.mp hp with h | h
    · obtain ⟨h1, h2⟩ := hnit p h
      omega
    · obtain ⟨x, hx, rfl⟩ := List.mem_map.mp h
      exact ⟨(hps x hx).number.2, (hps x hx).pid.2⟩
  have hfilter : (nit ++ ps.map fun p => (p.number, p.pid)).filter (fun p => p.1 ≠ 0) = ps.map fun p => (p.number, p.pid) := by
    rw [List.filter_append]
    have h1 : nit.filter (fun p => decide (p.1 ≠ 0)) = [] := by
      rw [List.filter_eq_nil_iff]
      intro p hp
      simp [(hnit p hp).1]
    have h2 : (ps.map fun p => (p.number, p.pid)).filter (fun p => decide (p.1 ≠ 0)) = ps.map fun p => (p.number, p.pid) := by
      rw [List.filter_eq_self]
      intro p hp
      obtain ⟨x, hx, rfl⟩ := List.mem_map.mp hp
      have := (hps x hx).number.1
      simp
      omega
    rw [h1, h2, List.nil_append]
  have hparse := parsePat_bytes sect _ hsect hrange
  rw [hfilter] at hparse
  have hstep : TableStep H 0 (sect.bytes (TsSpec.patData (nit ++ ps.map fun p => (p.number, p.pid))))
      (sect.size (TsSpec.patData (nit ++ ps.map fun p => (p.number, p.pid)))) (PatPart memLimit (St.init memLimit))
      (PatDone memLimit (St.init memLimit) (ps.map fun p => (p.number, p.pid))) :=
    fun s ch q hs hq hp hpre => pat_packet H hs q hq hp hparse hpre
  obtain ⟨s1, h1, h2, h3⟩ := table_run hstep hpat (size_le hsect) (s := St.init memLimit) (ch := [])
    ⟨⟨init_inv memLimit, rfl, rfl⟩, rfl, rfl, rfl⟩
  rw [h1, Res.bind_ok]
  by_cases hf : s1.fail = none
  · obtain ⟨d1, d2, d3⟩ := h3 hf
    obtain ⟨s', k1, k2, k3⟩ := pmts_run H (m := memLimit) ps [] hps (by simpa using ha) d1 (by
      rw [d2, List.map_map]
      rfl)
    refine ⟨s', k1, k2, fun hf' => ?_⟩
    obtain ⟨g1, g2, g3⟩ := k3 hf'
    rw [List.nil_append] at g2
    refine ⟨g1.buf, ⟨?_, ?_⟩, ?_, ?_⟩
    · rw [g2]
      simpa using hne
    · intro p hp
      rw [g2] at hp
      obtain ⟨x, hx, rfl⟩ := List.mem_map.mp hp
      have := (hps x hx).streams
      simpa [Program.known, newEs] using this
    · intro pid a hv
      rw [g2] at hv
      exact known_new hv
    · rw [g3, d3]
      rfl
  · obtain ⟨f0, hf0⟩ := Option.ne_none_iff_exists'.mp hf
    rw [pushAll_fail H (by simp [hf0])]
    exact ⟨s1, rfl, h2, fun h => absurd h hf⟩

end Verif.Ts
