import Verif.TsPes

/-!
# MPEG-TS: the tables
-/

namespace Verif.Ts

open TsSpec (Packet Pes Section Pmt)

/-! ## Reading a section, or the first part of one -/

theorem section_bytes (x : Section) (data : List UInt8) (hx : x.Ok data) (m : Nat) (hm : m ≤ 5 + data.length + 4) {br : Br}
    (h : br.flatten <+: x.bytes data) :
    (br.flatten.length < x.size data → section_ m br = .again) ∧
    (x.size data ≤ br.flatten.length → ∃ r t, section_ m br = .ok (5 + data.length + 4, r) ∧ r.flatten = x.five ++ data ++ x.crc ++ t) := by
  obtain ⟨l1, l2, hl, hln⟩ := be16_eq (n := 0xb000 + (5 + data.length + 4)) (by have := hx.size; omega)
  have hbytes : x.bytes data = UInt8.ofNat x.skip.length :: (x.skip ++ [x.table] ++ l1 :: l2 :: (x.five ++ data ++ x.crc ++ x.stuffing)) := by
    rw [TsSpec.Section.bytes, hl]
    simp
  rw [hbytes] at h
  have hsz := hx.size
  have hlen : ∀ y : List UInt8, (x.five ++ data ++ x.crc ++ y).length = 5 + data.length + 4 + y.length := by
    intro y
    simp only [List.length_append, hx.five, hx.crc]
  unfold section_
  match hbr : br.flatten with
  | [] =>
    have : rd8 br = none := by
      cases h8 : rd8 br with
      | none => rfl
      | some r =>
        obtain ⟨_, h8, _⟩ := rd8_some h8
        rw [hbr] at h8
        cases h8
    rw [this]
    exact ⟨fun _ => rfl, fun h => by simp [TsSpec.Section.size] at h⟩
  | a :: d =>
    rw [hbr, List.cons_prefix_cons] at h
    obtain ⟨rfl, t, ht⟩ := h
    obtain ⟨r1, e1, f1⟩ := rd8_cons hbr
    simp only [e1]
    rw [toNat_ofNat hx.skip]
    by_cases hd : d.length < x.skip.length + 1
    · rw [(rd_spec r1 _).2 (by rw [f1]; exact hd)]
      exact ⟨fun _ => rfl, fun h => by simp [TsSpec.Section.size] at h; omega⟩
    · obtain ⟨r2, e2, f2⟩ := rd_ok (br := r1) (n := x.skip.length + 1) (by rw [f1]; omega)
      simp only [e2]
      rw [f1] at f2
      have hd2 : d.drop (x.skip.length + 1) ++ t = l1 :: l2 :: (x.five ++ data ++ x.crc ++ x.stuffing) := by
        have := congrArg (List.drop (x.skip.length + 1)) ht
        rw [List.drop_append_of_le_length (by omega)] at this
        rw [this]
        have : x.skip.length + 1 = (x.skip ++ [x.table]).length := by simp
        rw [this, List.drop_left]
      have hdl : (d.drop (x.skip.length + 1)).length = d.length - (x.skip.length + 1) := List.length_drop ..
      generalize d.drop (x.skip.length + 1) = d2 at *
      match d2, hd2 with
      | [], _ =>
        have : rd16 r2 = none := by
          cases h8 : rd16 r2 with
          | none => rfl
          | some r =>
            obtain ⟨_, _, h8, _⟩ := rd16_some h8
            rw [f2] at h8
            cases h8
        rw [this]
        simp only [List.length_nil] at hdl
        exact ⟨fun _ => rfl, fun h => by simp [TsSpec.Section.size] at h; omega⟩
      | [y], _ =>
        have : rd16 r2 = none := by
          cases h8 : rd16 r2 with
          | none => rfl
          | some r =>
            obtain ⟨_, _, h8, _⟩ := rd16_some h8
            rw [f2] at h8
            cases h8
        rw [this]
        simp only [List.length_cons, List.length_nil] at hdl
        exact ⟨fun _ => rfl, fun h => by simp [TsSpec.Section.size] at h; omega⟩
      | y :: z :: d3, hd2 =>
        simp only [List.cons_append, List.cons.injEq] at hd2
        obtain ⟨rfl, rfl, hd3⟩ := hd2
        obtain ⟨r3, e3, f3⟩ := rd16_cons f2
        simp only [e3, hln]
        have hmod : (0xb000 + (5 + data.length + 4)) % 4096 = 5 + data.length + 4 := by omega
        rw [hmod, if_neg (by omega), if_neg (by omega)]
        simp only [List.length_cons] at hdl
        by_cases hk : d3.length < 5 + data.length + 4
        · rw [(rd_spec r3 _).2 (by rw [f3]; exact hk)]
          exact ⟨fun _ => rfl, fun h => by simp [TsSpec.Section.size] at h; omega⟩
        · obtain ⟨r4, e4, f4⟩ := rd_ok (br := r3) (n := 5 + data.length + 4) (by rw [f3]; omega)
          simp only [e4]
          refine ⟨fun h => by simp [TsSpec.Section.size] at h; omega, fun _ => ⟨r3, d3.drop (5 + data.length + 4), rfl, ?_⟩⟩
          rw [f3]
          have h1 : d3.take (5 + data.length + 4) = x.five ++ data ++ x.crc := by
            rw [← List.take_append_of_le_length (l₂ := t) (by omega), hd3]
            have h0 := hlen []
            rw [List.append_nil, List.length_nil, Nat.add_zero] at h0
            rw [← h0, List.take_left]
          rw [← h1, List.take_append_drop]

/-- A parser that waits for `need` bytes of `whole`, and then gives `v`. -/
def Parses {α : Type} (parse : Br → Res (Got α)) (whole : List UInt8) (need : Nat) (v : α) : Prop :=
  ∀ br : Br, br.flatten <+: whole → (br.flatten.length < need → parse br = .ok .again) ∧ (need ≤ br.flatten.length → parse br = .ok (.ok v))

theorem patProgs_bytes (ps : List (Nat × Nat)) (hp : ∀ p ∈ ps, p.1 < 65536 ∧ p.2 < 8192) {br : Br} {t : List UInt8}
    (h : br.flatten = TsSpec.patData ps ++ t) : patProgs ps.length br = .ok (ps.filter fun p => p.1 ≠ 0) := by
  induction ps generalizing br with
  | nil => rfl
  | cons p ps ih =>
    obtain ⟨n, pid⟩ := p
    obtain ⟨h1, h2⟩ := hp (n, pid) (by simp)
    simp only at h1 h2
    obtain ⟨a, b, e1, e2⟩ := be16_eq h1
    obtain ⟨a', b', e3, e4⟩ := be16_eq (n := 0xe000 + pid) (by omega)
    rw [TsSpec.patData, List.flatMap_cons, e1, e3] at h
    simp only [List.cons_append, List.nil_append] at h
    obtain ⟨r1, g1, f1⟩ := rd16_cons h
    obtain ⟨r2, g2, f2⟩ := rd16_cons f1
    rw [List.length_cons]
    simp only [patProgs, g1, g2, e2, e4]
    rw [ih (fun p h => hp p (by simp [h])) f2, Res.bind_ok]
    have : (0xe000 + pid) % 8192 = pid := by omega
    rw [this, List.filter_cons]
    by_cases h0 : n = 0 <;> simp [h0]

theorem patData_length (ps : List (Nat × Nat)) : (TsSpec.patData ps).length = 4 * ps.length := by
  induction ps with
  | nil => rfl
  | cons p ps ih =>
    have : TsSpec.patData (p :: ps) = TsSpec.be16 p.1 ++ TsSpec.be16 (0xe000 + p.2) ++ TsSpec.patData ps := rfl
    rw [this]
    simp only [List.length_append, ih, TsSpec.be16, List.length_cons, List.length_nil]
    omega

theorem parsePat_bytes (x : Section) (ps : List (Nat × Nat)) (hx : x.Ok (TsSpec.patData ps)) (hp : ∀ p ∈ ps, p.1 < 65536 ∧ p.2 < 8192) :
    Parses parsePat (x.bytes (TsSpec.patData ps)) (x.size (TsSpec.patData ps)) (ps.filter fun p => p.1 ≠ 0) := by
  intro br h
  obtain ⟨h1, h2⟩ := section_bytes x _ hx 9 (by omega) h
  refine ⟨fun hl => ?_, fun hl => ?_⟩
  · unfold parsePat
    rw [h1 hl]
  · obtain ⟨r, t, e1, f1⟩ := h2 hl
    unfold parsePat
    rw [e1]
    simp only
    obtain ⟨r2, e2, f2⟩ := rd_ok (br := r) (n := 5) (by rw [f1]; simp [hx.five])
    simp only [e2]
    rw [f1] at f2
    have h5 : (x.five ++ TsSpec.patData ps ++ x.crc ++ t).drop 5 = TsSpec.patData ps ++ (x.crc ++ t) := by
      rw [List.append_assoc, List.append_assoc, ← hx.five, List.drop_left]
    rw [h5] at f2
    have hn : (5 + (TsSpec.patData ps).length + 4 - 9) / 4 = ps.length := by
      rw [patData_length]
      omega
    rw [hn, patProgs_bytes ps hp f2, Res.bind_ok]

/-! ## The program map table -/

theorem pmtCount_bytes (es : List (Nat × Nat × List UInt8)) (he : ∀ e ∈ es, e.1 < 256 ∧ e.2.1 < 8192)
    (hl : (TsSpec.streamData es).length ≤ 1021) {br : Br} {t : List UInt8} (h : br.flatten = TsSpec.streamData es ++ t) (fuel : Nat)
    (hf : (TsSpec.streamData es).length ≤ fuel) : pmtCount fuel (TsSpec.streamData es).length br = .ok (some es.length) := by
  induction es generalizing br fuel with
  | nil => cases fuel <;> rfl
  | cons e es ih =>
    obtain ⟨type, pid, info⟩ := e
    have hc : (TsSpec.streamData ((type, pid, info) :: es)).length = 5 + info.length + (TsSpec.streamData es).length := by
      simp only [TsSpec.streamData, List.flatMap_cons, List.length_append, TsSpec.be16, List.length_cons, List.length_nil]
    rw [hc] at hl hf
    obtain ⟨a, b, e1, e2⟩ := be16_eq (n := 0xe000 + pid) (by have := (he _ (List.mem_cons_self ..)).2; simp only at this; omega)
    obtain ⟨a', b', e3, e4⟩ := be16_eq (n := 0xf000 + info.length) (by omega)
    have hd : TsSpec.streamData ((type, pid, info) :: es) = UInt8.ofNat type :: a :: b :: a' :: b' :: (info ++ TsSpec.streamData es) := by
      rw [TsSpec.streamData, List.flatMap_cons]
      simp only [e1, e3]
      rfl
    rw [hd] at h
    simp only [List.cons_append] at h
    obtain ⟨r1, g1, f1⟩ := rd_ok (br := br) (n := 3) (by rw [h]; simp)
    rw [h] at f1
    simp only [List.drop_succ_cons, List.drop_zero] at f1
    obtain ⟨r2, g2, f2⟩ := rd16_cons f1
    rw [List.append_assoc] at f2
    have hmod : (0xf000 + info.length) % 4096 = info.length := by omega
    obtain ⟨r3, g3, f3⟩ := rd_ok (br := r2) (n := info.length) (by rw [f2]; simp)
    rw [f2, List.drop_left] at f3
    obtain ⟨fu, rfl⟩ : ∃ fu, fuel = fu + 1 := ⟨fuel - 1, by omega⟩
    have hl2 : ∃ k, 5 + info.length + (TsSpec.streamData es).length = k + 1 := ⟨4 + info.length + (TsSpec.streamData es).length, by omega⟩
    obtain ⟨k, hk⟩ := hl2
    rw [hc, hk, pmtCount.eq_3 _ _ _ (by simp)]
    simp only [g1, g2, e4, hmod, g3]
    rw [if_neg (by omega)]
    have : k + 1 - (5 + info.length) = (TsSpec.streamData es).length := by omega
    rw [this, ih (fun e h => he e (by simp [h])) (by omega) f3 fu (by omega), Res.bind_ok]
    simp

theorem pmtStreams_bytes (es : List (Nat × Nat × List UInt8)) (he : ∀ e ∈ es, e.1 < 256 ∧ e.2.1 < 8192)
    (hl : (TsSpec.streamData es).length ≤ 1021) {br : Br} {t : List UInt8} (h : br.flatten = TsSpec.streamData es ++ t) :
    pmtStreams es.length br = .ok es := by
  induction es generalizing br with
  | nil => rfl
  | cons e es ih =>
    obtain ⟨type, pid, info⟩ := e
    have hc : (TsSpec.streamData ((type, pid, info) :: es)).length = 5 + info.length + (TsSpec.streamData es).length := by
      simp only [TsSpec.streamData, List.flatMap_cons, List.length_append, TsSpec.be16, List.length_cons, List.length_nil]
    rw [hc] at hl
    obtain ⟨t1, t2⟩ := he _ (List.mem_cons_self ..)
    simp only at t1 t2
    obtain ⟨a, b, e1, e2⟩ := be16_eq (n := 0xe000 + pid) (by omega)
    obtain ⟨a', b', e3, e4⟩ := be16_eq (n := 0xf000 + info.length) (by omega)
    have hd : TsSpec.streamData ((type, pid, info) :: es) = UInt8.ofNat type :: a :: b :: a' :: b' :: (info ++ TsSpec.streamData es) := by
      rw [TsSpec.streamData, List.flatMap_cons]
      simp only [e1, e3]
      rfl
    rw [hd] at h
    simp only [List.cons_append] at h
    obtain ⟨r0, g0, f0⟩ := rd8_cons h
    obtain ⟨r1, g1, f1⟩ := rd16_cons f0
    obtain ⟨r2, g2, f2⟩ := rd16_cons f1
    rw [List.append_assoc] at f2
    have hmod : (0xf000 + info.length) % 4096 = info.length := by omega
    have hmod2 : (0xe000 + pid) % 8192 = pid := by omega
    obtain ⟨r3, g3, f3⟩ := rd_ok (br := r2) (n := info.length) (by rw [f2]; simp)
    rw [f2, List.drop_left] at f3
    rw [f2, List.take_left] at g3
    rw [List.length_cons, pmtStreams]
    simp only [g0, g1, g2, e2, e4, hmod, hmod2, g3]
    rw [ih (fun e h => he e (by simp [h])) (by omega) f3, Res.bind_ok, toNat_ofNat t1]

theorem parsePmt_bytes (x : Section) (m : Pmt) (hx : x.Ok m.data) (hm : m.Ok) :
    Parses parsePmt (x.bytes m.data) (x.size m.data) (m.pcr, m.streams) := by
  have hdl : m.data.length = 4 + m.info.length + (TsSpec.streamData m.streams).length := by
    simp only [TsSpec.Pmt.data, List.length_append, TsSpec.be16, List.length_cons, List.length_nil]
  have hsz := hx.size
  intro br h
  obtain ⟨h1, h2⟩ := section_bytes x _ hx 13 (by omega) h
  refine ⟨fun hl => ?_, fun hl => ?_⟩
  · unfold parsePmt
    rw [h1 hl]
  · obtain ⟨r, t, e1, f1⟩ := h2 hl
    unfold parsePmt
    rw [e1]
    simp only
    obtain ⟨r2, e2, f2⟩ := rd_ok (br := r) (n := 5) (by rw [f1]; simp [hx.five])
    simp only [e2]
    rw [f1] at f2
    obtain ⟨a, b, b1, b2⟩ := be16_eq (n := 0xe000 + m.pcr) (by have := hm.pcr; omega)
    obtain ⟨a', b', b3, b4⟩ := be16_eq (n := 0xf000 + m.info.length) (by omega)
    have h5 : (x.five ++ m.data ++ x.crc ++ t).drop 5 = a :: b :: a' :: b' :: (m.info ++ (TsSpec.streamData m.streams ++ (x.crc ++ t))) := by
      rw [List.append_assoc, List.append_assoc, ← hx.five, List.drop_left, TsSpec.Pmt.data, b1, b3]
      simp
    rw [h5] at f2
    obtain ⟨r3, g3, f3⟩ := rd16_cons f2
    obtain ⟨r4, g4, f4⟩ := rd16_cons f3
    have hmod : (0xf000 + m.info.length) % 4096 = m.info.length := by omega
    have hmod2 : (0xe000 + m.pcr) % 8192 = m.pcr := by have := hm.pcr; omega
    obtain ⟨r5, g5, f5⟩ := rd_ok (br := r4) (n := m.info.length) (by rw [f4]; simp)
    rw [f4, List.drop_left] at f5
    simp only [g3, g4, b2, b4, hmod, hmod2, g5]
    rw [if_neg (by omega)]
    have : 5 + m.data.length + 4 - (13 + m.info.length) = (TsSpec.streamData m.streams).length := by omega
    rw [this, pmtCount_bytes m.streams hm.streams (by omega) f5 _ (by omega), Res.bind_ok]
    simp only
    rw [pmtStreams_bytes m.streams hm.streams (by omega) f5, Res.bind_ok]

end Verif.Ts
