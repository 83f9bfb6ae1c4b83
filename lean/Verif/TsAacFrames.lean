import Verif.TsAacFlat
import Verif.TsAacSpec

/-!
# C80: ADTS frames become frames
-/

namespace Verif.TsKmp

open AdtsSpec (Frame)

theorem header_eq (f : Frame) : f.header =
    ((((((((((((((4095 * 2 + f.id) * 4 + f.layer) * 2 + (if f.crc.isSome then 0 else 1)) * 4 + f.profile) * 16 + f.freq) * 2 + f.priv) * 8 + f.chan) * 2
      + f.original) * 2 + f.home) * 2 + f.copyId) * 2 + f.copyStart) * 8192 + f.len) * 2048 + f.full) * 4 + f.blocks) := by
  simp [Frame.header, AdtsSpec.bits]

theorem byte_of (f : Frame) (h : f.Valid) :
    f.header / 2 ^ 40 % 256 % 2 = (if f.crc.isSome then 0 else 1) ∧ f.header / 2 ^ 40 % 256 / 8 % 2 = f.id ∧
    f.header / 2 ^ 32 % 256 / 64 = f.profile ∧ f.header / 2 ^ 32 % 256 / 4 % 16 = f.freq ∧
    f.header / 2 ^ 32 % 256 % 2 * 4 + f.header / 2 ^ 24 % 256 / 64 = f.chan ∧
    f.header / 2 ^ 24 % 256 % 4 * 2048 + f.header / 2 ^ 16 % 256 * 8 + f.header / 2 ^ 8 % 256 / 32 = f.len := by
  obtain ⟨h1, h2, h3, h4, h5, h6, h7, h8, h9, h10, h11, h12, h13⟩ := h
  have hc : (if f.crc.isSome then 0 else 1) < 2 := by split <;> omega
  generalize hk : (if f.crc.isSome then 0 else 1) = k at hc
  have hh := header_eq f
  rw [hk] at hh
  generalize f.header = n at hh
  have e1 : n / 2 ^ 40 = ((4095 * 2 + f.id) * 4 + f.layer) * 2 + k := by omega
  have e2 : n / 2 ^ 32 = ((((((4095 * 2 + f.id) * 4 + f.layer) * 2 + k) * 4 + f.profile) * 16 + f.freq) * 2 + f.priv) * 2 + f.chan / 4 := by
    omega
  have e3 : n / 2 ^ 24 % 256 = (((f.chan % 4 * 2 + f.original) * 2 + f.home) * 2 + f.copyId) * 2 * 4 + f.copyStart * 4 + f.len / 2048 := by
    omega
  have e4 : n / 2 ^ 16 % 256 = f.len / 8 % 256 := by omega
  have e5 : n / 2 ^ 8 % 256 = f.len % 8 * 32 + f.full / 64 := by omega
  rw [e1, e2, e3, e4, e5]
  refine ⟨?_, ?_, ?_, ?_, ?_, ?_⟩ <;> omega

/-! ## What is expected -/

/-- What a frame says about the stream. -/
def conf (f : Frame) : Nat × Nat × Nat × Nat := (f.id, f.profile, f.freq, f.chan)

/-- What is announced of a stream with such frames. -/
def infoOf (f : Frame) : AInfo := { rate := AdtsSpec.rate f.freq, channels := f.chan, mono := f.chan = 1, extra := AdtsSpec.config f }

/-- What is written for frames with their times: the payloads with the times of a clock, and media info before those that differ from the frame
before. -/
def expected (last : Option (Nat × Nat × Nat × Nat)) (k : Clock) : List (Frame × Nat) → List AOut
  | [] => []
  | (f, time) :: fs =>
    (if last = some (conf f) then [] else [.info (infoOf f)]) ++ .frame (k.step time).timestamp f.payload ::
      expected (some (conf f)) (k.step time) fs

/-- The times of the frames of a PES packet: that of the packet, and the duration of the samples before in the packet, 1024 of each raw data
block. -/
def timed (pts samples : Nat) : List Frame → List (Frame × Nat)
  | [] => []
  | f :: fs => (f, pts + samples * 90000 / AdtsSpec.rate f.freq) :: timed pts (samples + 1024 * (f.blocks + 1)) fs

/-- A PES packet: the buffers, the time, and the frames in it. -/
structure Packet where
  chain : Chain
  pts : Nat
  frames : List Frame

structure Packet.Whole (p : Packet) : Prop where
  bufs : p.chain ≠ []
  bytes : p.chain.flatten = p.frames.flatMap Frame.bytes
  valid : ∀ f ∈ p.frames, f.Valid
  one : ∀ f ∈ p.frames, f.blocks = 0
  same : ∀ f ∈ p.frames, ∀ g ∈ p.frames, f.freq = g.freq

def runAudio (t : ATrack) : List Packet → Res ATrack
  | [] => .ok t
  | p :: ps => aacPes t p.chain p.pts >>= fun t => runAudio t ps

/-! ## Proof -/

def toParams (c : Nat × Nat × Nat × Nat) : AacParams := { version := c.1, profile := c.2.1 + 1, freqIndex := c.2.2.1, chan := c.2.2.2 }

theorem toParams_inj {a b : Nat × Nat × Nat × Nat} (h : toParams a = toParams b) : a = b := by
  obtain ⟨a1, a2, a3, a4⟩ := a
  obtain ⟨b1, b2, b3, b4⟩ := b
  simp only [toParams, AacParams.mk.injEq] at h
  obtain ⟨h1, h2, h3, h4⟩ := h
  rw [h1, show a2 = b2 by omega, h3, h4]

theorem rate_eq {i : Nat} (h : i < 13) : aacFreq i = AdtsSpec.rate i ∧ aacFreq i ≠ 0 :=
  (by decide : ∀ i < 13, aacFreq i = AdtsSpec.rate i ∧ aacFreq i ≠ 0) i h

theorem config_eq {p q c : Nat} (hp : p < 4) (hq : q < 13) (hc : c < 8) :
    [UInt8.ofNat ((p + 1) * 8 ||| q / 2), UInt8.ofNat (q * 128 ||| c * 8)] =
      [UInt8.ofNat (AdtsSpec.bits 0 [(5, p + 1), (4, q), (4, c), (3, 0)] / 256), UInt8.ofNat (AdtsSpec.bits 0 [(5, p + 1), (4, q), (4, c), (3, 0)])] :=
  (by decide +kernel : ∀ p < 4, ∀ q < 13, ∀ c < 8, [UInt8.ofNat ((p + 1) * 8 ||| q / 2), UInt8.ofNat (q * 128 ||| c * 8)] =
      [UInt8.ofNat (AdtsSpec.bits 0 [(5, p + 1), (4, q), (4, c), (3, 0)] / 256),
        UInt8.ofNat (AdtsSpec.bits 0 [(5, p + 1), (4, q), (4, c), (3, 0)])]) p hp q hq c hc

theorem aacInfo_eq (f : Frame) (h : f.Valid) : aacInfo (toParams (conf f)) = infoOf f := by
  have := config_eq h.profile h.freq h.chan
  simp only [aacInfo, infoOf, toParams, conf, (rate_eq h.freq).1, AdtsSpec.config, this]
  rfl

/-- The seven bytes, and those after. -/
def head7 (f : Frame) : List UInt8 :=
  [UInt8.ofNat (f.header / 2 ^ 48), UInt8.ofNat (f.header / 2 ^ 40), UInt8.ofNat (f.header / 2 ^ 32), UInt8.ofNat (f.header / 2 ^ 24),
    UInt8.ofNat (f.header / 2 ^ 16), UInt8.ofNat (f.header / 2 ^ 8), UInt8.ofNat f.header]

def headAll (f : Frame) : List UInt8 := head7 f ++ (match f.crc with | some (a, b) => [a, b] | none => [])

theorem headAll_length (f : Frame) : (headAll f).length = f.headerLen := by
  rw [headAll, Frame.headerLen, List.length_append]
  cases f.crc with
  | none => rfl
  | some x => rfl

theorem byte_head (f : Frame) (r : List UInt8) : byte (headAll f ++ r) 1 = f.header / 2 ^ 40 % 256 ∧ byte (headAll f ++ r) 2 = f.header / 2 ^ 32 % 256 ∧
    byte (headAll f ++ r) 3 = f.header / 2 ^ 24 % 256 ∧ byte (headAll f ++ r) 4 = f.header / 2 ^ 16 % 256 ∧
    byte (headAll f ++ r) 5 = f.header / 2 ^ 8 % 256 := by
  refine ⟨?_, ?_, ?_, ?_, ?_⟩ <;> simp [byte, headAll, head7]

theorem flatHeader_frame (f : Frame) (h : f.Valid) (r : List UInt8) :
    flatHeader (f.bytes ++ r) = .ok (some (headAll f, f.headerLen, f.payload ++ r)) := by
  have hb : f.bytes ++ r = headAll f ++ (f.payload ++ r) := by
    rw [Frame.bytes, headAll, head7, List.append_assoc]
    rfl
  have hlen := headAll_length f
  have h7 : 7 ≤ f.headerLen := by rw [Frame.headerLen]; split <;> omega
  have hb1 : (if byte (headAll f ++ (f.payload ++ r)) 1 % 2 = 0 then 9 else 7) = f.headerLen := by
    rw [(byte_head f _).1, (byte_of f h).1, Frame.headerLen]
    cases f.crc <;> rfl
  have hl : (headAll f ++ (f.payload ++ r)).length = f.headerLen + (f.payload ++ r).length := by rw [List.length_append, hlen]
  rw [hb, flatHeader, hb1, if_neg, if_neg (by omega), if_neg (by omega), ← hlen, List.take_left, List.drop_left]
  intro he
  rw [he] at hl
  simp only [List.length_nil] at hl
  omega

theorem decode_frame (f : Frame) (h : f.Valid) : aacDecode (headAll f) = some (toParams (conf f)) := by
  obtain ⟨b1, b2, b3, b4, b5⟩ := byte_head f []
  rw [List.append_nil] at b1 b2 b3
  obtain ⟨e1, e2, e3, e4, e5, e6⟩ := byte_of f h
  simp only [aacDecode, b1, b2, b3, e2, e3, e4, e5]
  rw [if_neg (rate_eq h.freq).2]
  rfl

theorem adtsLen_frame (f : Frame) (h : f.Valid) : adtsLen (headAll f) = f.len := by
  obtain ⟨b1, b2, b3, b4, b5⟩ := byte_head f []
  rw [List.append_nil] at b3 b4 b5
  rw [adtsLen, b3, b4, b5]
  exact (byte_of f h).2.2.2.2.2

/-- The state of the track after frames. -/
structure After (prev : Option (Nat × Nat × Nat × Nat)) (k : Clock) (t : ATrack) : Prop where
  last : t.last = prev.map toParams
  clock : t.clock = k
  sent : ∀ c, prev = some c → t.sent = true ∧ t.info = aacInfo (toParams c)

def endOf (last : Option (Nat × Nat × Nat × Nat)) (k : Clock) : List (Frame × Nat) → Option (Nat × Nat × Nat × Nat) × Clock
  | [] => (last, k)
  | (f, time) :: fs => endOf (some (conf f)) (k.step time) fs

theorem expected_append (last : Option (Nat × Nat × Nat × Nat)) (k : Clock) (a b : List (Frame × Nat)) :
    expected last k (a ++ b) = expected last k a ++ expected (endOf last k a).1 (endOf last k a).2 b := by
  induction a generalizing last k with
  | nil => rfl
  | cons x xs ih =>
    obtain ⟨f, time⟩ := x
    rw [List.cons_append, expected, expected, ih, endOf]
    simp only [List.append_assoc, List.cons_append]

theorem endOf_append (last : Option (Nat × Nat × Nat × Nat)) (k : Clock) (a b : List (Frame × Nat)) :
    endOf last k (a ++ b) = endOf (endOf last k a).1 (endOf last k a).2 b := by
  induction a generalizing last k with
  | nil => rfl
  | cons x xs ih =>
    obtain ⟨f, time⟩ := x
    rw [List.cons_append, endOf, ih, endOf]

theorem update_frame {last : Option (Nat × Nat × Nat × Nat)} {k : Clock} {t : ATrack} (h : After last k t) (f : Frame) (hf : f.Valid) :
    ∃ t', aacUpdate t (headAll f) = some t' ∧ t'.sendInfo.last = some (toParams (conf f)) ∧ t'.sendInfo.clock = k ∧ t'.sendInfo.sent = true ∧
      t'.sendInfo.info = infoOf f ∧ t'.sendInfo.out = t.out ++ (if last = some (conf f) then [] else [.info (infoOf f)]) := by
  rw [aacUpdate, decode_frame f hf]
  dsimp only
  by_cases hl : last = some (conf f)
  · have ht : t.last = some (toParams (conf f)) := by rw [h.last, hl]; rfl
    obtain ⟨h1, h2⟩ := h.sent _ hl
    refine ⟨t, by rw [if_pos ht], ?_⟩
    rw [ATrack.sendInfo, if_pos h1, if_pos hl, List.append_nil]
    exact ⟨ht, h.clock, h1, h2.trans (aacInfo_eq f hf), rfl⟩
  · have ht : t.last ≠ some (toParams (conf f)) := by
      rw [h.last]
      intro hm
      cases last with
      | none => cases hm
      | some c =>
        rw [Option.map_some, Option.some.injEq] at hm
        exact hl (by rw [toParams_inj hm])
    refine ⟨_, if_neg ht, ?_⟩
    rw [if_neg hl, ATrack.sendInfo, if_neg (by simp)]
    exact ⟨rfl, h.clock, rfl, aacInfo_eq f hf, by rw [← aacInfo_eq f hf]⟩

theorem loop_frames (pts fuel index : Nat) (fs : List Frame) {last : Option (Nat × Nat × Nat × Nat)} {k : Clock} {t : ATrack} (h : After last k t)
    (hv : ∀ f ∈ fs, f.Valid) (hfuel : fs.length < fuel) :
    ∃ t', flatLoop pts fuel index t (fs.flatMap Frame.bytes) = .ok t' ∧
      t'.out = t.out ++ expected last k ((fs.zipIdx index).map fun x => (x.1, pts + x.2 * 1024 * 90000 / AdtsSpec.rate x.1.freq)) ∧
      After (endOf last k ((fs.zipIdx index).map fun x => (x.1, pts + x.2 * 1024 * 90000 / AdtsSpec.rate x.1.freq))).1
        (endOf last k ((fs.zipIdx index).map fun x => (x.1, pts + x.2 * 1024 * 90000 / AdtsSpec.rate x.1.freq))).2 t' := by
  induction fs generalizing fuel index last k t with
  | nil =>
    cases fuel with
    | zero => omega
    | succ fuel => exact ⟨t, rfl, by simp [expected], h⟩
  | cons f fs ih =>
    cases fuel with
    | zero => omega
    | succ fuel =>
      have hf := hv f (List.mem_cons_self ..)
      obtain ⟨t1, h1, a1, a2, a3, a4, a5⟩ := update_frame h f hf
      rw [List.flatMap_cons, flatLoop, flatHeader_frame f hf, Res.bind_ok]
      dsimp only
      rw [h1]
      dsimp only
      have hlen : f.len - f.headerLen = f.payload.length := by rw [Frame.len]; omega
      rw [adtsLen_frame f hf, if_neg (by rw [Frame.len]; omega), hlen, if_neg (by rw [List.length_append]; omega), List.take_left, List.drop_left,
        a2, a4, a5]
      have htime : pts + 92160000 * index / (infoOf f).rate = pts + index * 1024 * 90000 / AdtsSpec.rate f.freq := by
        rw [show (infoOf f).rate = AdtsSpec.rate f.freq from rfl]
        congr 2
        omega
      rw [htime, List.zipIdx_cons, List.map_cons, expected, endOf]
      obtain ⟨t2, e1, e2, e3⟩ := ih (last := some (conf f)) (k := k.step ((pts + index * 1024 * 90000 / AdtsSpec.rate f.freq : Nat) : Int))
        (t := { t1.sendInfo with
          clock := k.step ((pts + index * 1024 * 90000 / AdtsSpec.rate f.freq : Nat) : Int)
          out := t.out ++ (if last = some (conf f) then [] else [.info (infoOf f)]) ++
            [.frame (k.step ((pts + index * 1024 * 90000 / AdtsSpec.rate f.freq : Nat) : Int)).timestamp f.payload] })
        (fuel := fuel) (index := index + 1)
        ⟨a1, rfl, fun c hc => by
          cases hc
          exact ⟨a3, a4.trans (aacInfo_eq f hf).symm⟩⟩
        (fun g hg => hv g (List.mem_cons_of_mem _ hg)) (by rw [List.length_cons] at hfuel; omega)
      refine ⟨t2, ?_, ?_, e3⟩
      · rw [← e1]
        simp only [a4]
      · rw [e2]
        simp only [List.append_assoc, List.cons_append, List.nil_append]

theorem bytes_length (f : Frame) : 1 ≤ f.bytes.length := by
  rw [Frame.bytes]
  simp only [List.length_append, List.length_cons]
  omega

theorem flatMap_length (fs : List Frame) : fs.length ≤ (fs.flatMap Frame.bytes).length := by
  induction fs with
  | nil => exact Nat.le_refl _
  | cons f fs ih =>
    have := bytes_length f
    rw [List.flatMap_cons, List.length_append, List.length_cons]
    omega

theorem timed_eq (pts index : Nat) (fs : List Frame) (h : ∀ f ∈ fs, f.blocks = 0) :
    ((fs.zipIdx index).map fun x => (x.1, pts + x.2 * 1024 * 90000 / AdtsSpec.rate x.1.freq)) = timed pts (index * 1024) fs := by
  induction fs generalizing index with
  | nil => rfl
  | cons f fs ih =>
    rw [List.zipIdx_cons, List.map_cons, timed, ih _ (fun g hg => h g (List.mem_cons_of_mem _ hg)), h f (List.mem_cons_self ..)]
    simp only [Nat.add_mul, Nat.zero_add, Nat.mul_one, Nat.one_mul]

theorem run_packets (ps : List Packet) {last : Option (Nat × Nat × Nat × Nat)} {k : Clock} {t : ATrack} (h : After last k t)
    (hp : ∀ p ∈ ps, p.Whole) :
    ∃ t', runAudio t ps = .ok t' ∧ t'.out = t.out ++ expected last k (ps.flatMap fun p => timed p.pts 0 p.frames) := by
  induction ps generalizing last k t with
  | nil => exact ⟨t, rfl, by simp [expected]⟩
  | cons p ps ih =>
    have hw := hp p (List.mem_cons_self ..)
    obtain ⟨t1, h1, h2, h3⟩ := loop_frames p.pts (p.chain.flatten.length + 1) 0 p.frames h hw.valid (by
      rw [hw.bytes]
      exact Nat.lt_succ_of_le (flatMap_length _))
    rw [timed_eq _ _ _ hw.one, Nat.zero_mul] at h2 h3
    obtain ⟨t2, e1, e2⟩ := ih h3 (fun q hq => hp q (List.mem_cons_of_mem _ hq))
    refine ⟨t2, ?_, ?_⟩
    · rw [← hw.bytes] at h1
      rw [runAudio, aacPes, loop_flat _ _ _ _ _ hw.bufs, h1, Res.bind_ok]
      exact e1
    · rw [e2, h2, List.flatMap_cons, expected_append, List.append_assoc]

/-- C80: from PES packets that hold whole ADTS frames of one raw data block, the payload of each frame is written as a frame, in order, with the
time of the packet plus that of the samples before it in the packet, and before it the media info and the AudioSpecificConfig of its header if
they differ from those of the frame before. Missing: frames that go on in the next PES packet, several raw data blocks, packets in which the
frequency changes, PES packets without a buffer (see TsKmpCases). -/
theorem aac_frames_are_received_partial (ps : List Packet) (hp : ∀ p ∈ ps, p.Whole) :
    ∃ t', runAudio {} ps = .ok t' ∧ t'.out = expected none {} (ps.flatMap fun p => timed p.pts 0 p.frames) := by
  obtain ⟨t', h1, h2⟩ := run_packets ps (last := none) (k := {}) (t := {}) ⟨rfl, rfl, fun c hc => by cases hc⟩ hp
  exact ⟨t', h1, by rw [h2]; rfl⟩

end Verif.TsKmp
