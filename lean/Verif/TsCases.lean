import Verif.TsLoss
import Verif.TsStart

/-!
# MPEG-TS: examples, and what does not hold
-/

namespace Verif.Ts.Cases

open TsSpec (Packet Pes Section Pmt)

/-- A packet, filled up with an adaptation field. -/
def pkt (pid : Nat) (start : Bool) (cont : Nat) (payload : List UInt8) : Packet :=
  { pid := pid, start := start, cont := cont, payload := payload,
    adapt := if payload.length = 184 then none else some (if payload.length = 183 then [] else 0 :: List.replicate (182 - payload.length) 0xff) }

/-- Every handler agrees. -/
def yes : Handler := fun _ => true

def patSect : Section := { table := 0, crc := [1, 2, 3, 4], stuffing := List.replicate 100 0xff }
def pmtSect : Section := { table := 2, crc := [5, 6, 7, 8], stuffing := [0xff] }
def pmt : Pmt := { pcr := 256, streams := [(0x1b, 256, []), (0x0f, 257, [10, 4, 101, 110, 103, 0])] }

/-- The packets of the table of the program: two of them. -/
def pmtPackets : List Packet :=
  [pkt 4096 true 0 ((pmtSect.bytes pmt.data).take 20), pkt 4096 false 1 ((pmtSect.bytes pmt.data).drop 20)]

def prog : Program := { number := 1, pid := 4096, pmt := pmt, sect := pmtSect, packets := pmtPackets }

/-- The packet of the program association table. -/
def patPackets : List Packet := [pkt 0 true 0 (patSect.bytes (TsSpec.patData [(0, 16), (1, 4096)]))]

/-- The tables. -/
def tables : List UInt8 := bytesOf (patPackets ++ [prog].flatMap Program.packets)

/-- What is left after them. -/
def ready : Option St :=
  match (St.init 100000).session yes [[tables]] with
  | .ok s => some s
  | _ => none

/-- Whether a packet is as it must be. -/
def okB (q : Packet) : Bool :=
  decide (q.pid < 8192) && decide (q.cont < 16) && decide (q.bytes.length = 188) &&
    match q.adapt with
    | some (f :: t) => decide (f.toNat / 16 % 2 = 0) || decide (6 ≤ t.length)
    | _ => true

theorem ok_of {q : Packet} (h : okB q = true) : q.Ok := by
  simp only [okB, Bool.and_eq_true, decide_eq_true_eq] at h
  obtain ⟨⟨⟨h1, h2⟩, h3⟩, h4⟩ := h
  refine ⟨h1, h2, h3, fun f t ha hp => ?_⟩
  rw [ha] at h4
  simp only [Bool.or_eq_true, decide_eq_true_eq] at h4
  omega

theorem patBrings : TsSpec.Brings 0 (patSect.bytes (TsSpec.patData [(0, 16), (1, 4096)]))
    (patSect.size (TsSpec.patData [(0, 16), (1, 4096)])) patPackets := by
  refine ⟨fun q hq => ?_, ⟨_, _, rfl, rfl, by simp⟩, by decide +kernel, by decide +kernel⟩
  simp only [patPackets, List.mem_singleton] at hq
  subst hq
  exact ⟨ok_of (by decide +kernel), rfl⟩

theorem progOk : prog.Ok := by
  refine ⟨by decide, by decide, ⟨by decide, by decide, by decide, by decide⟩, ⟨by decide, by decide⟩, by decide, ?_⟩
  refine ⟨fun q hq => ?_, ⟨_, _, rfl, rfl, by decide⟩, by decide +kernel, by decide +kernel⟩
  simp only [prog, pmtPackets, List.mem_cons, List.not_mem_nil, or_false] at hq
  rcases hq with rfl | rfl
  · exact ⟨ok_of (by decide +kernel), rfl⟩
  · exact ⟨ok_of (by decide +kernel), rfl⟩

/-- C77 for these tables, in two pieces. -/
example : ∃ s, (St.init 100000).session yes [[tables.take 100], [tables.drop 100]] = .ok s ∧ (∀ f, s.fail = some f → f = .memory ∨ f = .handler) := by
  obtain ⟨s, h1, h2, _⟩ := tables_are_read_as_sent yes 100000 [[tables.take 100], [tables.drop 100]] patSect [(0, 16)] [prog] patPackets (by decide)
    (by intro p hp; simp only [List.mem_singleton] at hp; subst hp; exact progOk) (by simp)
    ⟨by simp, trivial⟩ ⟨by decide, by decide, by decide, by decide⟩ patBrings (by simp [tables])
  exact ⟨s, h1, h2⟩

/-- What is announced. -/
example : ready.map St.log = some [.pat [(1, 4096)], .pmt 1 [(0x1b, 256, []), (0x0f, 257, [10, 4, 101, 110, 103, 0])]] := by decide +kernel

example : ready.map St.fail = some none := by decide +kernel

/-! ## PES packets -/

/-- A PES packet of video, with both times, over two packets. -/
def v1 : Pes := { sid := 0xe0, times := some (8589934591, some 3003), payload := List.replicate 200 7 }
/-- One whose length is not written. -/
def v2 : Pes := { sid := 0xe0, bounded := false, times := some (9009, none), extra := [0xff, 0xff], payload := [1, 2, 3] }
/-- One without times. -/
def v3 : Pes := { sid := 0xe0, payload := [4] }
/-- One of audio, without data. -/
def w1 : Pes := { sid := 0xc0, times := some (5, none), payload := [] }

def v1p : List Packet := [pkt 256 true 14 (v1.bytes.take 184), pkt 256 false 15 (v1.bytes.drop 184)]
def v2p : List Packet := [pkt 256 true 0 v2.bytes]
def v3p : List Packet := [pkt 256 true 1 v3.bytes]
def w1p : List Packet := [pkt 257 true 3 w1.bytes]
def w2p : List Packet := [pkt 257 true 4 w1.bytes]

/-- The streams are interleaved, and a table is sent again. -/
def stream : List Packet := [pkt 256 true 14 (v1.bytes.take 184)] ++ w1p ++ patPackets ++ [pkt 256 false 15 (v1.bytes.drop 184)] ++ v2p ++ w2p ++ v3p

def units (pid : Nat) : List (Pes × List Packet) :=
  if pid = 256 then [(v1, v1p), (v2, v2p), (v3, v3p)] else if pid = 257 then [(w1, w1p), (w1, w2p)] else []

def counters (pid : Nat) : Nat := if pid = 256 then 14 else 3

theorem streamOk : ∀ q ∈ stream, q.Ok := by
  intro q hq
  simp only [stream, w1p, patPackets, v2p, w2p, v3p, List.cons_append, List.nil_append, List.mem_cons, List.not_mem_nil, or_false] at hq
  rcases hq with rfl | rfl | rfl | rfl | rfl | rfl | rfl <;> exact ok_of (by decide +kernel)

/-- Whether a PES packet is as it must be. -/
def pesOkB (p : Pes) : Bool :=
  decide (p.sid < 256) && decide (p.rest.length < 65536) && decide (p.flags.1 < 256) && decide (p.flags.2 < 64) &&
    decide (p.timeField.length + p.extra.length < 256) &&
    match p.times with
    | some (t, some d) => decide (t < 2 ^ 33) && decide (d < 2 ^ 33)
    | some (t, none) => decide (t < 2 ^ 33)
    | none => true

theorem pesOk {p : Pes} (h : pesOkB p = true) : p.Ok := by
  simp only [pesOkB, Bool.and_eq_true, decide_eq_true_eq] at h
  obtain ⟨⟨⟨⟨⟨h1, h2⟩, h3⟩, h3'⟩, h4⟩, h5⟩ := h
  refine ⟨h1, fun _ => h2, fun t o ht => ?_, fun t d ht => ?_, ⟨h3, h3'⟩, h4⟩
  · rw [ht] at h5
    cases o with
    | none => simpa using h5
    | some d =>
      simp only [Bool.and_eq_true, decide_eq_true_eq] at h5
      exact h5.1
  · rw [ht] at h5
    simp only [Bool.and_eq_true, decide_eq_true_eq] at h5
    exact h5.2

theorem unitsOk (pid : Nat) (hp : pid = 256 ∨ pid = 257) : ofStream pid stream = ((units pid).map Prod.snd).flatten ∧
    TsSpec.Counted (counters pid) (ofStream pid stream) ∧ ∀ u ∈ units pid, u.1.Ok ∧ TsSpec.Carries u.1 u.2 := by
  rcases hp with rfl | rfl
  · refine ⟨by decide +kernel, by simp [TsSpec.Counted, ofStream, stream, counters, w1p, patPackets, v2p, w2p, v3p, pkt], fun u hu => ?_⟩
    simp only [units, if_true, List.mem_cons, List.not_mem_nil, or_false] at hu
    rcases hu with rfl | rfl | rfl
    · exact ⟨pesOk (by decide +kernel), ⟨_, _, rfl, rfl, by decide⟩, by decide +kernel, by decide +kernel⟩
    · exact ⟨pesOk (by decide +kernel), ⟨_, _, rfl, rfl, by decide⟩, by decide +kernel, by decide +kernel⟩
    · exact ⟨pesOk (by decide +kernel), ⟨_, _, rfl, rfl, by decide⟩, by decide +kernel, by decide +kernel⟩
  · refine ⟨by decide +kernel, by simp [TsSpec.Counted, ofStream, stream, counters, w1p, patPackets, v2p, w2p, v3p, pkt], fun u hu => ?_⟩
    have : units 257 = [(w1, w1p), (w1, w2p)] := rfl
    simp only [this, List.mem_cons, List.not_mem_nil, or_false] at hu
    rcases hu with rfl | rfl
    · exact ⟨pesOk (by decide +kernel), ⟨_, _, rfl, rfl, by decide⟩, by decide +kernel, by decide +kernel⟩
    · exact ⟨pesOk (by decide +kernel), ⟨_, _, rfl, rfl, by decide⟩, by decide +kernel, by decide +kernel⟩

theorem readyStreams (pid : Nat) {s : St} (hs : ready = some s) (h : s.Streams pid) : pid = 256 ∨ pid = 257 := by
  have h1 : ready.map St.progs = some [prog.known] := by decide +kernel
  rw [hs] at h1
  simp only [Option.map_some, Option.some.injEq] at h1
  simp only [St.Streams, h1, viewOf, Program.known, prog, pmt, newEs, findPid, List.map_cons, List.map_nil, findEs] at h
  by_cases h0 : pid = 0
  · simp [h0] at h
  · by_cases h2 : pid = 4096
    · simp [h2] at h
    · by_cases h3 : pid = 256
      · exact .inl h3
      · by_cases h4 : pid = 257
        · exact .inr h4
        · simp [h0, h2, h3, h4] at h

/-- C75 for this stream. -/
example (s : St) (hs : ready = some s) : ∃ s', s.session yes [[bytesOf stream]] = .ok s' ∧
    (s'.fail = none → ∀ pid, s.Streams pid → s'.received pid = s.received pid ++ TsSpec.expected (0, 0) (units pid).dropLast) := by
  obtain ⟨s', h1, _, h2⟩ := pes_packets_are_received_partial yes 100000 [[tables]] [[bytesOf stream]] s
    (by
      unfold ready at hs
      split at hs
      · rename_i h; cases hs; exact h
      · cases hs)
    (by have : ready.map St.fail = some none := by decide +kernel
        rw [hs] at this; simpa using this)
    (by have : ready.map St.buf = some none := by decide +kernel
        rw [hs] at this; simpa using this)
    (by have h1 : ready.map St.progs = some [prog.known] := by decide +kernel
        rw [hs] at h1
        simp only [Option.map_some, Option.some.injEq] at h1
        rw [St.Known, h1]
        refine ⟨by simp, fun p hp => ?_⟩
        simp only [List.mem_singleton] at hp
        subst hp
        decide)
    stream (by simp) streamOk units counters
    (fun pid hp => by
      have hpid := readyStreams pid hs hp
      refine ⟨?_, unitsOk pid hpid⟩
      have h1 : ready.map (fun s => (viewOf 256 s.progs, viewOf 257 s.progs)) = some (some (A.new 256), some (A.new 257)) := by decide +kernel
      rw [hs] at h1
      simp only [Option.map_some, Option.some.injEq, Prod.mk.injEq] at h1
      rcases hpid with rfl | rfl
      · exact h1.1
      · exact h1.2)
  exact ⟨s', h1, h2⟩

/-- What is received after the tables. -/
def got (pid : Nat) (qs : List Packet) : Option (List TsSpec.Received × Option Fail) :=
  match (St.init 100000).session yes [[tables], [bytesOf qs]] with
  | .ok s => some (s.received pid, s.fail)
  | _ => none

example : got 256 stream = some ([
    { sid := 0xe0, pts := 8589934591, dts := 3003, random := false, data := List.replicate 200 7 },
    { sid := 0xe0, pts := 9009, dts := 9009, random := false, data := [1, 2, 3] }], none) := by decide +kernel

example : got 257 stream = some ([{ sid := 0xc0, pts := 5, dts := 5, random := false, data := [] }], none) := by decide +kernel

/-- C73: the same bytes at once, or in pieces. -/
example : ∃ s, (St.init 100000).session yes [[tables ++ bytesOf stream]] = .ok s ∧
    (St.init 100000).session yes [[tables.take 3, tables.drop 3], [], [(bytesOf stream).take 200, [], (bytesOf stream).drop 200]] = .ok s :=
  reading_does_not_depend_on_the_pieces yes 100000 _ _ (by
    have : tables.take 3 ++ (tables.drop 3 ++ bytesOf stream) = tables ++ bytesOf stream := by
      rw [← List.append_assoc, List.take_append_drop]
    simp [this])

/-- C74: with memory for two packets, the PES packet over two packets, while the tables take one each, can be read, and a third cannot. -/
example : ((St.init 400).session yes [[tables], [bytesOf v1p]]).map (fun s => (s.ids, s.memLeft, s.fail)) = .ok ([0, 1], 24, none) ∧
    ((St.init 400).session yes [[tables], [bytesOf (v1p ++ w1p)]]).map St.fail = .ok (some .memory) := by decide +kernel

/-- The first of the packets of `v1` is lost. -/
def lossy : List Packet := [pkt 256 false 15 (v1.bytes.drop 184)] ++ v2p ++ v3p

/-- C76 for this loss. -/
example (s s' : St) (hs : ready = some s) (hs' : s.session yes [[bytesOf lossy]] = .ok s') (hf : s'.fail = none) :
    ∃ rs, s'.received 256 = s.received 256 ++ rs ∧ ∀ r ∈ rs, ∃ u ∈ units 256, TsSpec.Of u.1 r :=
  received_was_sent_partial yes 100000 [[tables]] [[bytesOf lossy]] s
    (by
      unfold ready at hs
      split at hs
      · rename_i h; cases hs; exact h
      · cases hs)
    (by have : ready.map St.fail = some none := by decide +kernel
        rw [hs] at this; simpa using this)
    (by have : ready.map St.buf = some none := by decide +kernel
        rw [hs] at this; simpa using this)
    (by have h1 : ready.map St.progs = some [prog.known] := by decide +kernel
        rw [hs] at h1
        simp only [Option.map_some, Option.some.injEq] at h1
        rw [St.Known, h1]
        refine ⟨by simp, fun p hp => ?_⟩
        simp only [List.mem_singleton] at hp
        subst hp
        decide)
    lossy (by simp)
    (fun q hq => by
      simp only [lossy, v2p, v3p, List.cons_append, List.nil_append, List.mem_cons, List.not_mem_nil, or_false] at hq
      rcases hq with rfl | rfl | rfl <;> exact ok_of (by decide +kernel))
    s' hs' hf 256
    (by have h1 : ready.map (fun s => viewOf 256 s.progs) = some (some (A.new 256)) := by decide +kernel
        rw [hs] at h1
        simpa using h1)
    (units 256) 14 (unitsOk 256 (.inl rfl)).2.2
    (by rw [← (unitsOk 256 (.inl rfl)).1]; exact (unitsOk 256 (.inl rfl)).2.1)
    (by
      have h1 : ((units 256).map Prod.snd).flatten = v1p ++ v2p ++ v3p := rfl
      have h2 : ofStream 256 lossy = lossy := by decide +kernel
      rw [h1, h2]
      exact .lost (by decide) (.arrives (.arrives (.arrives (.nil _)))))

/-- And what is received. -/
example : got 256 lossy = some ([{ sid := 0xe0, pts := 9009, dts := 9009, random := false, data := [1, 2, 3] }], none) := by decide +kernel

/-! ## What does not hold -/

/-- The counters as the standard has them (2.4.3.3): a packet without payload has the one of the packet before. -/
def countedStd : Nat → List Packet → Bool
  | _, [] => true
  | c, q :: qs =>
    if q.payload = [] then decide (q.cont = (c + 15) % 16) && countedStd c qs else decide (q.cont = c) && countedStd ((c + 1) % 16) qs

/-- A PES packet over two packets, between which there is one with an adaptation field alone. -/
def noPayload : List Packet := [pkt 256 true 14 (v1.bytes.take 184), pkt 256 false 14 [], pkt 256 false 15 (v1.bytes.drop 184)] ++ v2p ++ v3p

/-- Finding: in a stream that conforms, a PES packet is lost when a packet without payload is among its packets. Its data are there,
and its counters are right, but it is not received. -/
theorem packets_without_payload_lose_data :
    countedStd 14 noPayload = true ∧ (∀ q ∈ noPayload, q.Ok) ∧
    ((noPayload.take 3).map Packet.payload).flatten = v1.bytes ∧
    got 256 noPayload = some ([{ sid := 0xe0, pts := 9009, dts := 9009, random := false, data := [1, 2, 3] }], none) := by
  refine ⟨by decide +kernel, ?_, by decide +kernel, by decide +kernel⟩
  intro q hq
  simp only [noPayload, v2p, v3p, List.cons_append, List.nil_append, List.mem_cons, List.not_mem_nil, or_false] at hq
  rcases hq with rfl | rfl | rfl | rfl | rfl <;> exact ok_of (by decide +kernel)

/-- The packets `qs` carry the PES packet `p`, and some of them may have no payload. -/
structure CarriesStd (p : Pes) (qs : List Packet) : Prop where
  start : ∃ q t, qs = q :: t ∧ q.start = true ∧ q.payload ≠ [] ∧ ∀ x ∈ t, x.start = false
  bytes : (qs.map Packet.payload).flatten = p.bytes

/-- The claim C75 in full, but for the last PES packet: as `pes_packets_are_received_partial`, for packets without payload too. -/
def PesReceived : Prop :=
  ∀ (H : Handler) (memLimit : Nat) (calls more : List (List (List UInt8))) (s : St),
    (St.init memLimit).session H calls = .ok s → s.fail = none → s.buf = none → s.Known →
    ∀ (qs : List Packet), more.flatten.flatten = bytesOf qs → (∀ q ∈ qs, q.Ok) →
    ∀ (units : Nat → List (Pes × List Packet)) (c : Nat → Nat),
    (∀ pid, s.Streams pid → viewOf pid s.progs = some (A.new pid) ∧ ofStream pid qs = ((units pid).map Prod.snd).flatten ∧
      countedStd (c pid) (ofStream pid qs) = true ∧ ∀ u ∈ units pid, u.1.Ok ∧ CarriesStd u.1 u.2) →
    ∃ s', s.session H more = .ok s' ∧ (∀ f, s'.fail = some f → f = .memory ∨ f = .handler) ∧
      (s'.fail = none → ∀ pid, s.Streams pid → s'.received pid = s.received pid ++ TsSpec.expected (0, 0) (units pid).dropLast)

theorem ready_session {s : St} (hs : ready = some s) : (St.init 100000).session yes [[tables]] = .ok s := by
  unfold ready at hs
  split at hs
  · rename_i h
    cases hs
    exact h
  · cases hs

theorem ready_parts {s : St} (hs : ready = some s) : s.fail = none ∧ s.buf = none ∧ s.Known ∧ viewOf 256 s.progs = some (A.new 256) ∧
    viewOf 257 s.progs = some (A.new 257) ∧ s.received 256 = [] := by
  have h1 : ready.map St.fail = some none := by decide +kernel
  have h2 : ready.map St.buf = some none := by decide +kernel
  have h3 : ready.map St.progs = some [prog.known] := by decide +kernel
  have h4 : ready.map (fun s => viewOf 256 s.progs) = some (some (A.new 256)) := by decide +kernel
  have h5 : ready.map (fun s => viewOf 257 s.progs) = some (some (A.new 257)) := by decide +kernel
  have h6 : ready.map (fun s => s.received 256) = some [] := by decide +kernel
  rw [hs] at h1 h2 h3 h4 h5 h6
  simp only [Option.map_some, Option.some.injEq] at h1 h2 h3 h4 h5 h6
  refine ⟨h1, h2, ?_, h4, h5, h6⟩
  rw [St.Known, h3]
  refine ⟨by simp, fun p hp => ?_⟩
  simp only [List.mem_singleton] at hp
  subst hp
  decide

theorem got_session {s s' : St} {qs : List Packet} (hs : ready = some s) (h : s.session yes [[bytesOf qs]] = .ok s') :
    got 256 qs = some (s'.received 256, s'.fail) := by
  have h1 := ready_session hs
  simp only [St.session] at h h1
  have h2 : (St.init 100000).session yes [[tables], [bytesOf qs]] = .ok s' := by
    simp only [St.session]
    cases hr : (St.init 100000).read yes [tables] with
    | ok s0 =>
      rw [hr, Res.bind_ok] at h1
      cases h1
      rw [Res.bind_ok]
      exact h
    | err => rw [hr] at h1; cases h1
    | ub => rw [hr] at h1; cases h1
  unfold got
  rw [h2]

theorem noPayloadUnits : ofStream 256 noPayload = ([(v1, noPayload.take 3), (v2, v2p), (v3, v3p)].map Prod.snd).flatten := by decide +kernel

/-- C75 does not hold for packets without payload. -/
theorem not_pes_received : ¬ PesReceived := by
  intro hall
  obtain ⟨s, hs⟩ : ∃ s, ready = some s := by
    cases h : ready with
    | some s => exact ⟨s, rfl⟩
    | none =>
      have : ready.isSome = true := by decide +kernel
      rw [h] at this
      cases this
  obtain ⟨p1, p2, p3, p4, p5, p6⟩ := ready_parts hs
  obtain ⟨s', h1, _, h2⟩ := hall yes 100000 [[tables]] [[bytesOf noPayload]] s (ready_session hs) p1 p2 p3 noPayload (by simp)
    packets_without_payload_lose_data.2.1 (fun pid => if pid = 256 then [(v1, noPayload.take 3), (v2, v2p), (v3, v3p)] else []) (fun _ => 14)
    (by
      intro pid hp
      rcases readyStreams pid hs hp with rfl | rfl
      · refine ⟨p4, noPayloadUnits, by decide +kernel, fun u hu => ?_⟩
        simp only [if_true, List.mem_cons, List.not_mem_nil, or_false] at hu
        rcases hu with rfl | rfl | rfl
        · exact ⟨pesOk (by decide +kernel), ⟨_, _, rfl, rfl, by decide +kernel, by decide⟩, by decide +kernel⟩
        · exact ⟨pesOk (by decide +kernel), ⟨_, _, rfl, rfl, by decide +kernel, by decide⟩, by decide +kernel⟩
        · exact ⟨pesOk (by decide +kernel), ⟨_, _, rfl, rfl, by decide +kernel, by decide⟩, by decide +kernel⟩
      · exact ⟨p5, by decide +kernel, by decide +kernel, fun u hu => by simp at hu⟩)
  have hg := got_session hs h1
  rw [packets_without_payload_lose_data.2.2.2] at hg
  simp only [Option.some.injEq, Prod.mk.injEq] at hg
  have := h2 hg.2.symm 256 (by rw [St.Streams, p4]; rfl)
  rw [← hg.1, p6] at this
  revert this
  decide +kernel

/-- Finding: the last PES packet of a stream is not received, though it is complete and its length is written. -/
theorem the_last_is_not_received : got 256 v3p = some ([], none) ∧ (v3p.map Packet.payload).flatten = v3.bytes ∧ v3.bounded = true := by
  decide +kernel

/-- A PES packet whose length is not written, over two packets. -/
def u1 : Pes := { sid := 0xe0, bounded := false, times := some (9009, none), payload := List.replicate 200 7 }
def u1p : List Packet := [pkt 256 true 0 (u1.bytes.take 184), pkt 256 false 1 (u1.bytes.drop 184)]
def u2p : List Packet := [pkt 256 true 2 v2.bytes]
def u3p : List Packet := [pkt 256 true 3 v3.bytes]

/-- Finding: when the second of its packets is lost, the first part is received as if it were all, and the next PES packet, of which
nothing was lost, is not received. -/
theorem a_truncated_packet_is_received :
    TsSpec.Lossy 0 (u1p ++ u2p ++ u3p) (u1p.take 1 ++ u2p ++ u3p) ∧ TsSpec.Counted 0 (u1p ++ u2p ++ u3p) ∧
    got 256 (u1p.take 1 ++ u2p ++ u3p) =
      some ([{ sid := 0xe0, pts := 9009, dts := 9009, random := false, data := List.replicate 170 7 }], none) := by
  refine ⟨.arrives (.lost (by decide) (.arrives (.arrives (.nil _)))), by simp [TsSpec.Counted, u1p, u2p, u3p, pkt], by decide +kernel⟩

/-- The claim C76 in full: what is received is a PES packet that was sent, with all its data. -/
def ReceivedWasSent : Prop :=
  ∀ (H : Handler) (memLimit : Nat) (calls more : List (List (List UInt8))) (s : St),
    (St.init memLimit).session H calls = .ok s → s.fail = none → s.buf = none → s.Known →
    ∀ (qs : List Packet), more.flatten.flatten = bytesOf qs → (∀ q ∈ qs, q.Ok) →
    ∀ (s' : St), s.session H more = .ok s' → s'.fail = none →
    ∀ (pid : Nat), viewOf pid s.progs = some (A.new pid) →
    ∀ (us : List (Pes × List Packet)) (c : Nat), (∀ u ∈ us, u.1.Ok ∧ TsSpec.Carries u.1 u.2) →
    TsSpec.Counted c (us.map Prod.snd).flatten → TsSpec.Lossy 0 (us.map Prod.snd).flatten (ofStream pid qs) →
    ∃ rs, s'.received pid = s.received pid ++ rs ∧ ∀ r ∈ rs, ∃ u ∈ us, TsSpec.Of u.1 r ∧ r.data = u.1.payload

/-- C76 does not hold when the length is not written. -/
theorem not_received_was_sent : ¬ ReceivedWasSent := by
  intro hall
  obtain ⟨s, hs⟩ : ∃ s, ready = some s := by
    cases h : ready with
    | some s => exact ⟨s, rfl⟩
    | none =>
      have : ready.isSome = true := by decide +kernel
      rw [h] at this
      cases this
  obtain ⟨p1, p2, p3, p4, p5, p6⟩ := ready_parts hs
  obtain ⟨t1, t2, t3⟩ := a_truncated_packet_is_received
  obtain ⟨s', h1⟩ : ∃ s', s.session yes [[bytesOf (u1p.take 1 ++ u2p ++ u3p)]] = .ok s' := by
    have hr := reached_ready yes (ready_session hs) p1 p2 p3
    rw [session_push yes _ (fun _ => hr.inv)]
    obtain ⟨s', h, _⟩ := pushAll_inv yes (fun _ => hr.inv) ([[bytesOf (u1p.take 1 ++ u2p ++ u3p)]] : List (List (List UInt8))).flatten.flatten
    exact ⟨s', h⟩
  have hg := got_session hs h1
  rw [t3] at hg
  simp only [Option.some.injEq, Prod.mk.injEq] at hg
  obtain ⟨rs, r1, r2⟩ := hall yes 100000 [[tables]] [[bytesOf (u1p.take 1 ++ u2p ++ u3p)]] s (ready_session hs) p1 p2 p3
    (u1p.take 1 ++ u2p ++ u3p) (by simp)
    (fun q hq => by
      simp only [u1p, u2p, u3p, List.take_succ_cons, List.take_zero, List.cons_append, List.nil_append, List.mem_cons, List.not_mem_nil, or_false] at hq
      rcases hq with rfl | rfl | rfl <;> exact ok_of (by decide +kernel))
    s' h1 hg.2.symm 256 p4 [(u1, u1p), (v2, u2p), (v3, u3p)] 0
    (fun u hu => by
      simp only [List.mem_cons, List.not_mem_nil, or_false] at hu
      rcases hu with rfl | rfl | rfl
      · exact ⟨pesOk (by decide +kernel), ⟨_, _, rfl, rfl, by decide⟩, by decide +kernel, by decide +kernel⟩
      · exact ⟨pesOk (by decide +kernel), ⟨_, _, rfl, rfl, by decide⟩, by decide +kernel, by decide +kernel⟩
      · exact ⟨pesOk (by decide +kernel), ⟨_, _, rfl, rfl, by decide⟩, by decide +kernel, by decide +kernel⟩)
    t2
    (by
      have h2 : ofStream 256 (u1p.take 1 ++ u2p ++ u3p) = u1p.take 1 ++ u2p ++ u3p := by decide +kernel
      rw [h2]
      exact t1)
  rw [← hg.1, p6, List.nil_append] at r1
  subst r1
  obtain ⟨u, hu, _, hd⟩ := r2 _ (List.mem_singleton.mpr rfl)
  simp only [List.mem_cons, List.not_mem_nil, or_false] at hu
  revert hd
  rcases hu with rfl | rfl | rfl <;> decide +kernel

/-- Finding: the CRC of a table is not checked. -/
theorem the_crc_is_not_checked : patSect.crc = [1, 2, 3, 4] ∧ ready.map St.log =
    some [.pat [(1, 4096)], .pmt 1 [(0x1b, 256, []), (0x0f, 257, [10, 4, 101, 110, 103, 0])]] := by
  decide +kernel

end Verif.Ts.Cases
