import Verif.MtsGroups

/-! # Theorems about segments of MPEG-TS -/

namespace Verif.Mts

open TsSpec (Packet Pes)
open MtsSpec (pidOf ofPid Sample Samples Coded Carried Codec Consecutive)

/-- A track of a segment: what it is coded with, its pid, stream id and whether it has the PCR, the first counter of ID3, and its frames from a
time on, each with the pieces in which it is read. -/
structure Src where
  codec : Codec
  pid : Nat
  sid : Nat
  pcr : Bool
  cc : Nat
  time : Nat
  frames : List InFrame

def Src.kind (s : Src) : Kind :=
  match s.codec with
  | .video hevc k extra => .video (conf hevc k extra)
  | .aac o r c => .audio (some ⟨o, r, c⟩)
  | .raw => .audio none
  | .id3 => .id3 s.cc

def Src.track (s : Src) : Track := ⟨s.kind, s.pid, s.sid, s.pcr, s.frames, s.time⟩

def InFrame.spec (f : InFrame) : MtsSpec.Frame := ⟨f.duration, f.ptsDelay, f.key, f.data⟩

def Src.video (s : Src) : Bool := match s.codec with | .video .. => true | _ => false
def Src.audio (s : Src) : Bool := match s.codec with | .aac .. => true | .raw => true | _ => false
/-- The first counter. -/
def Src.first (s : Src) : Nat := match s.codec with | .id3 => s.cc % 16 | _ => 0

/-- Frames of video are NAL units with their lengths; those of AAC fit in ADTS frames; those of other audio are not empty; text fits in a tag. -/
def FrameFits (c : Codec) (data : List UInt8) : Prop :=
  match c with
  | .video _ k _ => ∃ ns : List (List UInt8), ns ≠ [] ∧ (∀ n ∈ ns, n ≠ [] ∧ n.length < 256 ^ k) ∧ data = (ns.map (MtsSpec.lengthed k)).flatten
  | .aac _ _ _ => data.length + 7 < 8192
  | .raw => data ≠ []
  | .id3 => True

structure Src.Ok (s : Src) : Prop where
  pid : s.pid < 8192
  sid : s.sid = 0xbd ∨ (0xc0 ≤ s.sid ∧ s.sid ≤ 0xef)
  codec : ∀ o r c, s.codec = .aac o r c → 1 ≤ o ∧ o ≤ 4 ∧ r < 16 ∧ c < 8
  pieces : ∀ f ∈ s.frames, ∀ p ∈ f.pieces, p ≠ []
  fits : ∀ f ∈ s.frames, FrameFits s.codec f.data

theorem adts_bytes (o r c : Nat) (data : List UInt8) (h1 : 1 ≤ o) (h2 : o ≤ 4) (h3 : r < 16) (h4 : c < 8) (h5 : data.length + 7 < 8192) :
    (AacConf.mk o r c).header (data.length + 7) ++ data = (MtsSpec.adts o r c data).bytes := by
  unfold AacConf.header AdtsSpec.Frame.bytes AdtsSpec.Frame.header
  simp only [MtsSpec.adts, AdtsSpec.bits, AdtsSpec.Frame.len, AdtsSpec.Frame.headerLen, List.foldl_cons, List.foldl_nil, Option.isSome_none, Bool.false_eq_true,
    if_false, List.append_nil]
  refine congrArg (· ++ data) ?_
  have hmod : ∀ a b : Nat, a % 256 = b % 256 → UInt8.ofNat a = UInt8.ofNat b := by
    intro a b h
    apply UInt8.toNat_inj.mp
    simpa using h
  generalize data.length = n at h5 ⊢
  refine List.cons_eq_cons.mpr ⟨hmod 255 _ (by omega), List.cons_eq_cons.mpr ⟨hmod 0xf1 _ (by omega), List.cons_eq_cons.mpr ⟨hmod _ _ (by omega),
    List.cons_eq_cons.mpr ⟨hmod _ _ (by omega), List.cons_eq_cons.mpr ⟨hmod _ _ (by omega), List.cons_eq_cons.mpr ⟨hmod _ _ (by omega),
    List.cons_eq_cons.mpr ⟨hmod 0xfc _ (by omega), rfl⟩⟩⟩⟩⟩⟩⟩

theorem id3_bytes (data : List UInt8) : id3Header data.length ++ data = MtsSpec.id3Tag data := by
  unfold id3Header MtsSpec.id3Tag MtsSpec.id3Frame synchsafe
  simp only [MtsSpec.sevens, List.length_cons, List.cons_append, List.nil_append]

theorem video_conv (hevc : Bool) (k : Nat) (extra : List UInt8) (f : InFrame) (out : List UInt8) (hfit : FrameFits (.video hevc k extra) f.data)
    (h : Conv (.video (conf hevc k extra)) f out) : Coded (.video hevc k extra) f.key f.data out := by
  obtain ⟨ns, -, h1, h2⟩ := hfit
  obtain ⟨a', conv, z, h3, h4, -, h5⟩ := h
  have hk : (conf hevc k extra).lenSize = k := by unfold conf; split <;> rfl
  have he : (conf hevc k extra).extra = extra := by unfold conf; split <;> rfl
  have haud : (conf hevc k extra).aud = (if hevc then [0, 0, 0, 1, 0x46, 1, 0x50] else [0, 0, 0, 1, 9, 0xf0]) := by unfold conf; split <;> rfl
  obtain ⟨a1, h6⟩ := units_steps hevc k extra ns true f.size h1
  have hbeg : Annexb.begun (conf hevc k extra) f.size = between (conf hevc k extra) true f.size := rfl
  rw [hbeg, h2, h6] at h3
  cases h3
  refine ⟨ns, z, h1, h2, ?_, fun hne => h5 (by rw [hk]; exact hne)⟩
  rw [h4, haud, he]; rfl

theorem Src.coded (s : Src) (h : s.Ok) (f : InFrame) (hf : f ∈ s.frames) (out : List UInt8) (hc : Conv s.kind f out) : Coded s.codec f.key f.data out := by
  have hfit := h.fits f hf
  have hcod := h.codec
  unfold Src.kind at hc
  cases hcc : s.codec with
  | video hevc k extra =>
    rw [hcc] at hc hfit
    exact video_conv hevc k extra f out hfit hc
  | aac o r c =>
    rw [hcc] at hc hfit
    obtain ⟨a1, a2, a3, a4⟩ := hcod o r c hcc
    show out = _
    rw [show out = (AacConf.mk o r c).header (f.size + 7) ++ f.data from hc]
    exact adts_bytes o r c f.data a1 a2 a3 a4 hfit
  | raw => rw [hcc] at hc; exact hc
  | id3 =>
    rw [hcc] at hc
    show out = _
    rw [show out = id3Header f.size ++ f.data from hc]
    exact id3_bytes f.data

theorem Src.samples (s : Src) (h : s.Ok) (fs : List InFrame) (hfs : ∀ f ∈ fs, f ∈ s.frames) (t : Nat) (cs : List Chunk) (hm : Matches s.kind t fs cs) :
    Samples s.codec t (fs.map InFrame.spec) (cs.map sampleOf) := by
  induction fs generalizing t cs with
  | nil =>
    cases cs with
    | nil => trivial
    | cons _ _ => exact hm.elim
  | cons f fs ih =>
    cases cs with
    | nil => exact hm.elim
    | cons c cs =>
      obtain ⟨⟨h1, h2, h3⟩, h4⟩ := hm
      exact ⟨h2, h1, s.coded h f (hfs f (by simp)) _ h3, ih (fun x hx => hfs x (by simp [hx])) _ _ h4⟩

theorem Src.info_ok (s : Src) (h : s.Ok) : s.track.info.Ok := ⟨h.pid, h.sid⟩

theorem tracks_ok (ss : List Src) (hp : (ss.map Src.pid).Nodup) (h : ∀ s ∈ ss, s.Ok) : TracksOk (ss.map Src.track) := by
  refine ⟨by rw [List.map_map]; exact hp, ?_, ?_, ?_⟩
  · intro t ht
    obtain ⟨s, hs, rfl⟩ := List.mem_map.mp ht
    exact s.info_ok (h s hs)
  · intro t ht
    obtain ⟨s, hs, rfl⟩ := List.mem_map.mp ht
    show KindOk s.kind
    unfold Src.kind
    cases s.codec with
    | video hevc k extra =>
      have haud : (conf hevc k extra).aud = (if hevc then [0, 0, 0, 1, 0x46, 1, 0x50] else [0, 0, 0, 1, 9, 0xf0]) := by unfold conf; split <;> rfl
      show (conf hevc k extra).Ok
      constructor <;> rw [haud] <;> split <;> simp
    | aac _ _ _ => trivial
    | raw => trivial
    | id3 => trivial
  · intro t ht f hf
    obtain ⟨s, hs, rfl⟩ := List.mem_map.mp ht
    refine ⟨(h s hs).pieces f hf, ?_⟩
    intro hk
    have hfit := (h s hs).fits f hf
    have hk' : s.kind = .audio none := hk
    unfold Src.kind at hk'
    cases hcc : s.codec with
    | video _ _ _ => rw [hcc] at hk'; cases hk'
    | aac _ _ _ => rw [hcc] at hk'; cases hk'
    | id3 => rw [hcc] at hk'; cases hk'
    | raw =>
      rw [hcc] at hfit
      intro h0
      exact hfit (by rw [InFrame.data, h0]; rfl)

theorem tracks_good (ss : List Src) (hp : (ss.map Src.pid).Nodup) (h : ∀ s ∈ ss, s.Ok) : Good (ss.map Src.track) := by
  intro t ht f hf filt g time l hinv
  have htk := tracks_ok ss hp h
  obtain ⟨s, hs, rfl⟩ := List.mem_map.mp ht
  have hfit := (h s hs).fits f hf
  intro herr
  rcases filt_frame s.track.kind (htk.kind _ ht) filt g hinv f (htk.frames _ ht f hf) time l with ⟨-, c, hk, hc⟩ | ⟨filt', as, g1, g2, c, h1, -⟩
  · have hk' : s.kind = .video c := hk
    unfold Src.kind at hk'
    cases hcc : s.codec with
    | aac _ _ _ => rw [hcc] at hk'; cases hk'
    | id3 => rw [hcc] at hk'; cases hk'
    | raw => rw [hcc] at hk'; cases hk'
    | video hevc k extra =>
      rw [hcc] at hk' hfit
      obtain rfl : conf hevc k extra = c := by injection hk'
      obtain ⟨ns, n1, n2, n3⟩ := hfit
      rw [hk] at hinv
      obtain ⟨-, a, rfl, ha⟩ := hinv
      obtain ⟨a', x, z, e1, -⟩ := video_data hevc k extra true a ha ⟨time + f.ptsDelay, time, f.key, f.size, 0⟩ f.pieces l ns n1 n2 n3 rfl
      have herr' : Filt.calls true (.video a) ([.start ⟨time + f.ptsDelay, time, f.key, f.size, 0⟩] ++ f.pieces.map .write ++ [.flush l]) = .err := herr
      rw [e1] at herr'
      cases herr'
  · rw [h1] at herr; cases herr

theorem Src.media_video (s : Src) : decide (s.track.info.media = .video) = s.video := by
  unfold Src.track Track.info Src.kind Src.video
  cases s.codec <;> rfl

theorem Src.media_single (s : Src) : s.track.kind.single = !s.audio := by
  show s.kind.single = _
  unfold Src.kind Src.audio
  cases s.codec <;> rfl

theorem Src.media_cc (s : Src) : s.track.kind.cc = s.first := by
  show s.kind.cc = _
  unfold Src.kind Src.first
  cases s.codec <;> rfl

/-- The number of packets without data after `n` packets. -/
def Src.fillers (s : Src) (n : Nat) : Nat := if s.frames ≠ [] ∧ s.codec ≠ .id3 then (16 - n % 16) % 16 else 0

theorem Src.fill_eq (s : Src) (n : Nat) : fill s.track.info (!s.frames.isEmpty) (s.first + n) = s.fillers n := by
  unfold fill Src.fillers
  have h1 : ((!s.frames.isEmpty) = true) ↔ s.frames ≠ [] := by cases s.frames <;> simp
  have h2 : s.track.info.media ≠ .id3 ↔ s.codec ≠ .id3 := by
    unfold Src.track Track.info Src.kind
    cases s.codec <;> simp [Kind.media]
  by_cases h : s.frames ≠ [] ∧ s.codec ≠ .id3
  · rw [if_pos ⟨h1.mpr h.1, h2.mpr h.2⟩, if_pos h]
    have : s.first = 0 := by
      have := h.2
      unfold Src.first
      cases hc : s.codec with
      | id3 => exact absurd hc this
      | _ => rfl
    rw [this, Nat.zero_add]
  · rw [if_neg (fun hh => h ⟨h1.mp hh.1, h2.mp hh.2⟩), if_neg h]

/-- **C84**. -/
theorem segment_carries (ss : List Src) (hp : (ss.map Src.pid).Nodup) (h : ∀ s ∈ ss, s.Ok) :
    ∃ ps, segment true (ss.map Src.track) = .ok ps ∧ (∀ p ∈ ps, p.length = 188 ∧ ∃ s ∈ ss, pidOf p = s.pid) ∧
      ∀ s ∈ ss, ∃ samples groups us, Samples s.codec s.time (s.frames.map InFrame.spec) samples ∧
        Carried s.video (!s.audio) s.pcr s.pid s.sid s.first samples (s.fillers (us.flatMap Prod.snd).length) groups us (ofPid s.pid ps) := by
  rcases segment_inv _ (tracks_ok ss hp h) with ⟨-, h2⟩ | ⟨ps, h1, h2, h3, -⟩
  · exact absurd (tracks_good ss hp h) h2
  · refine ⟨ps, h1, ?_, ?_⟩
    · intro p hpp
      obtain ⟨a, t, ht, b⟩ := h2 p hpp
      obtain ⟨s, hs, rfl⟩ := List.mem_map.mp ht
      exact ⟨a, s, hs, b⟩
    · intro s hs
      obtain ⟨cs, as, c1, c2, c3, c4⟩ := h3 s.track (List.mem_map_of_mem hs)
      obtain ⟨n, groups, us, d1, d2⟩ := carried_all _ s.track.info (s.info_ok (h s hs)) as cs c2 _ c4 s.track.kind.cc
      rw [← c3, s.media_video, s.media_single, s.media_cc] at d1
      rw [s.media_cc, show s.track.frames = s.frames from rfl, s.fill_eq] at d2
      rw [d2] at d1
      exact ⟨cs.map sampleOf, groups, us, s.samples (h s hs) s.frames (fun f hf => hf) s.time cs c1, d1⟩

/-- **C86**. -/
theorem announced_size_partial (ss : List Src) (hp : (ss.map Src.pid).Nodup) (h : ∀ s ∈ ss, s.Ok) (hk : ∀ s ∈ ss, ∀ hevc k extra, s.codec = .video hevc k extra → k = 4) :
    ∃ ps, segment true (ss.map Src.track) = .ok ps ∧ announced true (ss.map Src.track) = 376 + ps.flatten.length := by
  rcases segment_inv _ (tracks_ok ss hp h) with ⟨-, h2⟩ | ⟨ps, h1, h2, h3, h4⟩
  · exact absurd (tracks_good ss hp h) h2
  · refine ⟨ps, h1, ?_⟩
    have hl : ps.flatten.length = 188 * ps.length := by
      clear h1 h3 h4
      induction ps with
      | nil => rfl
      | cons p ps ih =>
        rw [List.flatten_cons, List.length_append, ih (fun x hx => h2 x (by simp [hx])), (h2 p (by simp)).1, List.length_cons]; omega
    rw [hl]
    apply h4
    intro t ht
    obtain ⟨s, hs, rfl⟩ := List.mem_map.mp ht
    show Sized s.kind
    unfold Src.kind
    cases hcc : s.codec with
    | video hevc k extra =>
      have hlen : (conf hevc k extra).lenSize = k := by unfold conf; split <;> rfl
      show (conf hevc k extra).lenSize = 4
      rw [hlen]; exact hk s hs hevc k extra hcc
    | aac _ _ _ => trivial
    | raw => trivial
    | id3 => trivial

end Verif.Mts
