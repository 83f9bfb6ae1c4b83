import Verif.MtsCarve
import Verif.MtsSpec

/-! # The packets of a frame carry a PES packet -/

namespace Verif.Mts

open TsSpec (Packet Pes be16)

/-- The adaptation field of the first packet of a frame. -/
def Info.field (i : Info) (f : OFrame) : Option (List UInt8) := if i.pcr then some (MtsSpec.pcrField (f.dts + 4590)) else none

/-- The PES packet of a frame. -/
def Info.pes (i : Info) (f : OFrame) (d : List UInt8) : Pes := MtsSpec.pes (i.media = .video) i.sid f.pts f.dts d

/-- The stream has a PID, and a stream id whose packets have a header. -/
structure Info.Ok (i : Info) : Prop where
  pid : i.pid < 8192
  sid : i.sid = 0xbd ∨ (0xc0 ≤ i.sid ∧ i.sid ≤ 0xef)

theorem Info.pes_short (i : Info) (f : OFrame) (d : List UInt8) (h : i.Ok) : (i.pes f d).short = false := by
  have := h.sid
  simp [Pes.short, Info.pes, MtsSpec.pes, TsSpec.padding]
  omega

theorem ofNat_mod (a b : Nat) (h : a % 256 = b % 256) : UInt8.ofNat a = UInt8.ofNat b := by
  apply UInt8.toNat_inj.mp
  rw [UInt8.toNat_ofNat', UInt8.toNat_ofNat', h]

theorem writePts_bytes (mark t : Nat) : writePts mark t = TsSpec.timeBytes mark (t % 2 ^ 33) := by
  unfold writePts TsSpec.timeBytes be16
  simp only [List.cons_append, List.nil_append]
  refine List.cons_eq_cons.mpr ⟨?_, List.cons_eq_cons.mpr ⟨?_, List.cons_eq_cons.mpr ⟨?_, List.cons_eq_cons.mpr ⟨?_, List.cons_eq_cons.mpr ⟨?_, rfl⟩⟩⟩⟩⟩ <;>
    apply ofNat_mod <;> omega

theorem last_pcr (b : Nat) : UInt8.ofNat (b * 128) ||| 0x7e = UInt8.ofNat (b % 2 * 128 + 126) := by
  have h : UInt8.ofNat (b * 128) = UInt8.ofNat (b % 2 * 128) := ofNat_mod _ _ (by omega)
  rw [h]
  have : ∀ k : Fin 2, UInt8.ofNat (k.val * 128) ||| 0x7e = UInt8.ofNat (k.val * 128 + 126) := by decide
  exact this ⟨b % 2, by omega⟩

theorem writePcr_bytes (t : Nat) : 0x10 :: writePcr t = MtsSpec.pcrField t := by
  unfold writePcr MtsSpec.pcrField MtsSpec.be48
  rw [last_pcr]
  refine List.cons_eq_cons.mpr ⟨rfl, List.cons_eq_cons.mpr ⟨?_, List.cons_eq_cons.mpr ⟨?_, List.cons_eq_cons.mpr ⟨?_, List.cons_eq_cons.mpr ⟨?_,
    List.cons_eq_cons.mpr ⟨?_, List.cons_eq_cons.mpr ⟨?_, rfl⟩⟩⟩⟩⟩⟩⟩
  all_goals first | (apply ofNat_mod; omega) | skip
  show UInt8.ofNat 0 = _
  apply ofNat_mod; omega

/-- The header of a PES packet. -/
def pesHead (p : Pes) (n : Nat) : List UInt8 :=
  [0, 0, 1, UInt8.ofNat p.sid] ++ [UInt8.ofNat (n / 256), UInt8.ofNat n] ++
    ([UInt8.ofNat p.flags.1, UInt8.ofNat (p.timeFlags * 64 + p.flags.2), UInt8.ofNat (p.timeField.length + p.extra.length)] ++ p.timeField ++ p.extra)

theorem pes_head_bytes (i : Info) (f : OFrame) (d : List UInt8) (h : i.Ok) : (i.pes f d).bytes = pesHead (i.pes f d) (i.pesLen d.length) ++ d := by
  have hs := i.pes_short f d h
  have hlen : (if (i.pes f d).bounded then (i.pes f d).rest.length else 0) = i.pesLen d.length := by
    unfold Pes.rest
    rw [hs]
    unfold Info.pesLen
    by_cases hv : i.media = .video
    · simp [Info.pes, MtsSpec.pes, hv, Pes.timeField, TsSpec.timeBytes, be16]; split <;> split <;> omega
    · simp [Info.pes, MtsSpec.pes, hv, Pes.timeField, TsSpec.timeBytes, be16]; split <;> split <;> omega
  have hd : (i.pes f d).payload = d := rfl
  unfold Pes.bytes
  rw [hlen]
  unfold Pes.rest pesHead be16
  rw [hs, hd, ofNat_byte]
  simp only [Bool.false_eq_true, if_false, List.append_assoc]

theorem p0_head (e : Enc) (f : OFrame) (d : List UInt8) (h : e.info.Ok) :
    setSize (e.p0 f) e.info.sizeAt (e.info.pesLen d.length) =
      headOf e.info.pid e.cc true (e.info.field f) ++ pesHead (e.info.pes f d) (e.info.pesLen d.length) := by
  generalize hn : e.info.pesLen d.length = n
  have h1 := start_set (e.info.pid / 256) (by have := h.pid; omega)
  have h2 := flag_set (e.cc % 16) (Nat.mod_lt _ (by decide))
  have ht : (packetHeader e.info.pid e.cc).take 4 = packetHeader e.info.pid e.cc := rfl
  have hdrop : (packetHeader e.info.pid e.cc).drop 4 = [] := rfl
  have hm : (packetHeader e.info.pid e.cc).modify 1 (· ||| 0x40) =
      [0x47, UInt8.ofNat (64 + e.info.pid / 256), UInt8.ofNat e.info.pid, UInt8.ofNat (16 + e.cc % 16)] := by rw [← h1]; rfl
  have hm3 : ((packetHeader e.info.pid e.cc).modify 1 (· ||| 0x40)).modify 3 (· ||| 0x20) =
      [0x47, UInt8.ofNat (64 + e.info.pid / 256), UInt8.ofNat e.info.pid, UInt8.ofNat (32 + 16 + e.cc % 16)] := by rw [hm, ← h2]; rfl
  by_cases hp : e.info.pcr = true <;> by_cases hv : e.info.media = .video
  · have hfield : e.info.field f = some (0x10 :: writePcr (f.dts + 4590)) := by rw [Info.field, if_pos hp, writePcr_bytes]
    rw [hfield]
    simp only [Enc.p0, Info.pushPes, Info.pesHeader, Info.sizeAt, hp, hv, if_true, ht, hdrop, hm3, List.append_nil]
    simp only [headOf, pesHead, Info.pes, MtsSpec.pes, hv, decide_true, Pes.timeFlags, Pes.timeField, ← writePts_bytes, setSize, ofNat_byte,
      if_true, Option.isSome_some]
    rfl
  · have hfield : e.info.field f = some (0x10 :: writePcr (f.dts + 4590)) := by rw [Info.field, if_pos hp, writePcr_bytes]
    rw [hfield]
    simp only [Enc.p0, Info.pushPes, Info.pesHeader, Info.sizeAt, hp, hv, if_true, if_false, ht, hdrop, hm3, List.append_nil]
    simp only [headOf, pesHead, Info.pes, MtsSpec.pes, hv, decide_false, Bool.false_eq_true, if_false, Pes.timeFlags, Pes.timeField, ← writePts_bytes, setSize, ofNat_byte,
      if_true, Option.isSome_some]
    rfl
  · have hfield : e.info.field f = none := by rw [Info.field, if_neg hp]
    rw [hfield]
    simp only [Enc.p0, Info.pushPes, Info.pesHeader, Info.sizeAt, hp, hv, if_true, if_false, Bool.false_eq_true, ht, hdrop, hm, List.append_nil]
    simp only [headOf, pesHead, Info.pes, MtsSpec.pes, hv, decide_true, Pes.timeFlags, Pes.timeField, ← writePts_bytes, setSize, ofNat_byte,
      if_true, Option.isSome_none, Bool.false_eq_true, if_false, Nat.zero_add]
    rfl
  · have hfield : e.info.field f = none := by rw [Info.field, if_neg hp]
    rw [hfield]
    simp only [Enc.p0, Info.pushPes, Info.pesHeader, Info.sizeAt, hp, hv, if_false, Bool.false_eq_true, ht, hdrop, hm, List.append_nil]
    simp only [headOf, pesHead, Info.pes, MtsSpec.pes, hv, decide_false, Pes.timeFlags, Pes.timeField, ← writePts_bytes, setSize, ofNat_byte,
      if_true, Option.isSome_none, Bool.false_eq_true, if_false, Nat.zero_add]
    rfl

theorem field_len (i : Info) (f : OFrame) : fieldLen (i.field f) ≤ 8 := by
  unfold Info.field
  split
  · simp [fieldLen, MtsSpec.pcrField, MtsSpec.be48]
  · simp [fieldLen]

theorem field_ok (i : Info) (f : OFrame) : FieldOk (i.field f) ∧ i.field f ≠ some [] := by
  unfold Info.field
  split
  · refine ⟨?_, by simp [MtsSpec.pcrField]⟩
    intro g t h _
    simp only [MtsSpec.pcrField, Option.some.injEq, List.cons.injEq] at h
    rw [← h.2]; simp [MtsSpec.be48]
  · exact ⟨fun g t h => by simp at h, by simp⟩

theorem bytes_ne (p : Pes) : p.bytes ≠ [] := by simp [Pes.bytes]

/-- The packets of a frame. -/
theorem packets_carve (e : Enc) (f : OFrame) (d : List UInt8) (h : e.info.Ok) :
    e.packets f d = (carve e.info.pid e.cc true (e.info.field f) (e.info.pes f d).bytes).map Packet.bytes := by
  rw [← lay_carve _ _ _ _ _ (by have := field_len e.info f; omega) (bytes_ne _)]
  unfold Enc.packets
  rw [p0_head e f d h, pes_head_bytes _ _ _ h]
  rw [lay_more _ _ (headOf _ _ _ _)]
  have h1 : (setSize (e.p0 f) e.info.sizeAt (e.info.pesLen d.length)).length ≤ 31 := by
    have := pesSize_lt e.info
    rw [setSize_length, p0_length]; omega
  rw [p0_head e f d h, List.length_append] at h1
  omega

theorem pesSize_eq (i : Info) (f : OFrame) (d : List UInt8) (h : i.Ok) : fieldLen (i.field f) + (i.pes f d).bytes.length = i.pesSize + d.length := by
  have h1 := p0_length ⟨i, 0, 0, 0, (0, 0), 0, 0, 0, 0, none⟩ f
  have h2 := congrArg List.length (p0_head ⟨i, 0, 0, 0, (0, 0), 0, 0, 0, 0, none⟩ f d h)
  rw [setSize_length, h1, List.length_append, headOf_length] at h2
  rw [pes_head_bytes i f d h, List.length_append]
  simp only at h2
  omega

theorem packets_length (e : Enc) (f : OFrame) (d : List UInt8) (h : e.info.Ok) :
    (e.packets f d).length = (e.info.pesSize + d.length + 183) / 184 := by
  rw [packets_carve e f d h, List.length_map, carve_length _ _ _ _ _ (by have := field_len e.info f; omega) (bytes_ne _), pesSize_eq _ _ _ h]

/-- The packets of a frame are good packets with consecutive counters that carry the PES packet, with a PCR in the first if the stream has it. -/
theorem packets_carry (e : Enc) (f : OFrame) (d : List UInt8) (h : e.info.Ok) :
    ∃ qs : List Packet, e.packets f d = qs.map Packet.bytes ∧ (∀ q ∈ qs, q.Ok ∧ q.pid = e.info.pid) ∧ TsSpec.Counted (e.cc % 16) qs ∧
      TsSpec.Carries (e.info.pes f d) qs ∧
      (e.info.pcr = true → ∃ q n, qs.head? = some q ∧ q.adapt = some (MtsSpec.pcrField (f.dts + 4590) ++ List.replicate n 0xff)) := by
  have hl := field_len e.info f
  have hok := carve_ok e.info.pid e.cc true (e.info.field f) (e.info.pes f d).bytes h.pid (by omega) (field_ok _ _).1 (field_ok _ _).2 (bytes_ne _)
  obtain ⟨q, r, h1, h2, h3, h4⟩ := carve_first e.info.pid e.cc true (e.info.field f) (e.info.pes f d).bytes
  refine ⟨_, packets_carve e f d h, fun q hq => ⟨(hok q hq).1, (hok q hq).2.1⟩, carve_counted _ _ _ _ _ (by omega),
    ⟨⟨q, r, h1, h2, h3⟩, fun q hq => (hok q hq).2.2, carve_payload _ _ _ _ _ (by omega)⟩, ?_⟩
  intro hp
  obtain ⟨n, hn⟩ := h4 (MtsSpec.pcrField (f.dts + 4590)) (by rw [Info.field, if_pos hp])
  exact ⟨q, n, by rw [h1]; rfl, hn⟩

theorem pes_ok (i : Info) (f : OFrame) (d : List UInt8) (h : i.Ok) : (i.pes f d).Ok := by
  have hs := i.pes_short f d h
  refine ⟨by have := h.sid; show i.sid < 256; omega, ?_, ?_, ?_, by simp [Info.pes, MtsSpec.pes], ?_⟩
  · intro hb
    unfold Pes.rest
    rw [hs]
    by_cases hv : i.media = .video
    · simp [Info.pes, MtsSpec.pes, hv, Pes.timeField, TsSpec.timeBytes, be16] at hb ⊢; omega
    · simp [Info.pes, MtsSpec.pes, hv, Pes.timeField, TsSpec.timeBytes, be16] at hb ⊢; omega
  · intro t o ht
    simp only [Info.pes, MtsSpec.pes, Option.some.injEq, Prod.mk.injEq] at ht
    omega
  · intro t o ht
    simp only [Info.pes, MtsSpec.pes, Option.some.injEq, Prod.mk.injEq] at ht
    have := ht.2
    split at this
    · simp only [Option.some.injEq] at this; omega
    · cases this
  · by_cases hv : i.media = .video <;> simp [Info.pes, MtsSpec.pes, hv, Pes.timeField, TsSpec.timeBytes, be16]

/-! ## The packets without data -/

theorem nullPackets_filler (pid cc n : Nat) : nullPackets pid cc n = (List.range n).map fun k => MtsSpec.filler pid (cc + k) := by
  induction n generalizing cc with
  | zero => rfl
  | succ n ih =>
    rw [nullPackets, ih, List.range_succ_eq_map, List.map_cons, List.map_map]
    refine List.cons_eq_cons.mpr ⟨?_, List.map_congr_left fun k _ => ?_⟩
    · have := flag_set (cc % 16) (Nat.mod_lt _ (by decide))
      show [0x47, UInt8.ofNat (pid / 256), UInt8.ofNat pid, UInt8.ofNat (16 + cc % 16) ||| 0x20] ++ nullRest = _
      rw [this]
      rfl
    · show MtsSpec.filler pid (cc + 1 + k) = MtsSpec.filler pid (cc + (k + 1))
      rw [show cc + 1 + k = cc + (k + 1) by omega]

end Verif.Mts
