import Verif.MtsStreams
import Verif.MtsPsi

/-!
# Examples for the theorems about segments of MPEG-TS, and claims that are false
-/

namespace Verif.Mts.Cases

open MtsSpec (pidOf ofPid Consecutive)

/-- AVC with a delimiter, an IDR picture that is read in two pieces, and a second frame. -/
def video : Src :=
  ⟨.video false 4 [0, 0, 0, 1, 0x67, 1, 2, 0, 0, 0, 1, 0x68, 3], 256, 0xe0, true, 0, 9000,
    [⟨3000, 3000, true, [[0, 0, 0, 2, 9], [0xf0, 0, 0, 0, 3, 0x65, 1, 2]]⟩, ⟨3000, 0, false, [[0, 0, 0, 2, 0x41, 7]]⟩]⟩

def audio : Src :=
  ⟨.aac 2 4 2, 257, 0xc0, false, 0, 9000, [⟨1920, 0, true, [[1, 2, 3], [4]]⟩, ⟨1920, 0, true, [List.replicate 300 5]⟩]⟩

def raw : Src := ⟨.raw, 258, 0xc1, false, 0, 9000, [⟨2160, 0, true, [[1, 2, 3]]⟩]⟩

def text (cc n : Nat) : Src := ⟨.id3, 259, 0xbd, false, cc, 9000, [⟨6000, 0, true, [List.replicate (n + 1) 0x7b]⟩]⟩

theorem video_ok : video.Ok where
  pid := by decide
  sid := by decide
  codec := fun _ _ _ h => by cases h
  pieces := by decide
  fits := by
    intro f hf
    simp only [video, List.mem_cons, List.not_mem_nil, or_false] at hf
    rcases hf with rfl | rfl
    · exact ⟨[[9, 0xf0], [0x65, 1, 2]], by decide, by decide, by decide⟩
    · exact ⟨[[0x41, 7]], by decide, by decide, by decide⟩

theorem audio_ok : audio.Ok where
  pid := by decide
  sid := by decide
  codec := fun o r c h => by cases h; decide
  pieces := by decide +kernel
  fits := by
    intro f hf
    simp only [audio, List.mem_cons, List.not_mem_nil, or_false] at hf
    rcases hf with rfl | rfl
    · exact (by decide : 4 + 7 < 8192)
    · show (List.replicate 300 (5 : UInt8) ++ []).length + 7 < 8192
      rw [List.append_nil, List.length_replicate]; omega

theorem raw_ok : raw.Ok where
  pid := by decide
  sid := by decide
  codec := fun _ _ _ h => by cases h
  pieces := by decide
  fits := by
    intro f hf
    simp only [raw, List.mem_cons, List.not_mem_nil, or_false] at hf
    subst hf
    exact (by decide : [(1 : UInt8), 2, 3] ≠ [])

theorem text_ok (cc n : Nat) : (text cc n).Ok where
  pid := by show 259 < 8192; omega
  sid := Or.inl rfl
  codec := fun _ _ _ h => by cases h
  pieces := by
    intro f hf p hp
    simp only [text, List.mem_cons, List.not_mem_nil, or_false] at hf
    subst hf
    simp only [List.mem_cons, List.not_mem_nil, or_false] at hp
    subst hp
    simp
  fits := fun _ _ => trivial

def all : List Src := [video, audio, raw, text 3 10]

theorem all_ok : (all.map Src.pid).Nodup ∧ ∀ s ∈ all, s.Ok := by
  refine ⟨by decide, ?_⟩
  intro s hs
  simp only [all, List.mem_cons, List.not_mem_nil, or_false] at hs
  rcases hs with rfl | rfl | rfl | rfl
  · exact video_ok
  · exact audio_ok
  · exact raw_ok
  · exact text_ok 3 10

/-- C82, C83, C84, C85 and C86 for these tracks. -/
example := video_pes all all_ok.1 all_ok.2
example := audio_stream all all_ok.1 all_ok.2
example := segment_carries all all_ok.1 all_ok.2
example := counters_continue all all_ok.1 all_ok.2
example := segments_continue_partial all all all_ok.1 all_ok.2 all_ok.1 all_ok.2

theorem all_four : ∀ s ∈ all, ∀ hevc k extra, s.codec = .video hevc k extra → k = 4 := by
  intro s hs hevc k extra h
  simp only [all, List.mem_cons, List.not_mem_nil, or_false] at hs
  rcases hs with rfl | rfl | rfl | rfl <;> cases h
  rfl

example := announced_size_partial all all_ok.1 all_ok.2 all_four

/-- The first packet of the video, from the sync byte to the stuffing, and the number of packets. -/
example : (segment true (all.map Src.track)).map (fun ps => (ps.head?.map fun p => p.take 14, ps.length)) =
    .ok (some [0x47, 0x41, 0, 0x30, 132, 0x10, 0, 0, 0x1a, 0x8b, 0x7e, 0, 0xff, 0xff], 49) := by decide +kernel

/-! ## C85: ID3 -/

/-- The full claim: the counters go on in the next segment, for all pids. -/
def CountersGoOn : Prop :=
  ∀ ss ss' : List Src, (ss.map Src.pid).Nodup → (∀ s ∈ ss, s.Ok) → (ss'.map Src.pid).Nodup → (∀ s ∈ ss', s.Ok) →
    ∀ ps ps', segment true (ss.map Src.track) = .ok ps → segment true (ss'.map Src.track) = .ok ps' →
      ∀ s ∈ ss, ∀ s' ∈ ss', s.pid = s'.pid → s.codec = s'.codec → (s.codec = .id3 → s'.cc = s.cc + 1) → Consecutive s.first (ofPid s.pid (ps ++ ps'))

/-- The counter of ID3 is the number of the segment: a text over two packets is not counted on. -/
theorem not_counters_go_on : ¬ CountersGoOn := by
  intro h
  have h1 : ∃ ps, segment true [(text 0 200).track] = .ok ps ∧ ∃ ps', segment true [(text 1 0).track] = .ok ps' ∧
      ¬ Consecutive 0 (ofPid 259 (ps ++ ps')) := by
    refine ⟨_, rfl, _, rfl, ?_⟩
    unfold Consecutive
    decide +kernel
  obtain ⟨ps, e1, ps', e2, e3⟩ := h1
  refine e3 (h [text 0 200] [text 1 0] (by simp) ?_ (by simp) ?_ ps ps' e1 e2 (text 0 200) (by simp) (text 1 0) (by simp) rfl rfl (fun _ => rfl))
  · intro s hs
    rw [List.mem_singleton] at hs
    subst hs
    exact text_ok 0 200
  · intro s hs
    rw [List.mem_singleton] at hs
    subst hs
    exact text_ok 1 0

/-! ## C86: the size -/

/-- The full claim: the size that is announced is that of what is written, whether frames are aligned or not. -/
def SizeIsAnnounced (align : Bool) (four : Prop) : Prop :=
  ∀ ss : List Src, (ss.map Src.pid).Nodup → (∀ s ∈ ss, s.Ok) →
    (four → ∀ s ∈ ss, ∀ hevc k extra, s.codec = .video hevc k extra → k = 4) →
    ∀ ps, segment align (ss.map Src.track) = .ok ps → announced align (ss.map Src.track) = 376 + ps.flatten.length

/-- A NAL unit of one byte for a time in which audio waits, and two more. -/
def waiting : Src :=
  ⟨.video false 4 [], 256, 0xe0, true, 0, 0, [⟨60000, 0, true, [[0, 0, 0, 1, 0x65]]⟩, ⟨3000, 0, false, [[0, 0, 0, 1, 0x41]]⟩]⟩

/-- Audio that is written as it is: a small frame, and one that fills the buffer. -/
def small : Src := ⟨.raw, 257, 0xc0, false, 0, 0, [⟨120000, 0, true, [List.replicate 100 1]⟩, ⟨2160, 0, true, [List.replicate 2816 0x41]⟩]⟩

/-- Length fields of two bytes: the start codes need more room than was taken for them. -/
def shorts : Src :=
  ⟨.video false 2 [], 256, 0xe0, true, 0, 0, List.replicate 17 ⟨3000, 0, false, [(List.replicate 12 (MtsSpec.lengthed 2 (List.replicate 10 0x41))).flatten]⟩⟩

theorem waiting_ok : waiting.Ok where
  pid := by decide
  sid := by decide
  codec := fun _ _ _ h => by cases h
  pieces := by decide
  fits := by
    intro f hf
    simp only [waiting, List.mem_cons, List.not_mem_nil, or_false] at hf
    rcases hf with rfl | rfl
    · exact ⟨[[0x65]], by decide, by decide, by decide⟩
    · exact ⟨[[0x41]], by decide, by decide, by decide⟩

theorem small_ok : small.Ok where
  pid := by decide
  sid := by decide
  codec := fun _ _ _ h => by cases h
  pieces := by decide +kernel
  fits := by
    intro f hf
    simp only [small, List.mem_cons, List.not_mem_nil, or_false] at hf
    rcases hf with rfl | rfl
    · show List.replicate 100 (1 : UInt8) ++ [] ≠ []
      simp
    · intro h
      have := congrArg List.length (show List.replicate 2816 (0x41 : UInt8) ++ [] = [] from h)
      rw [List.append_nil, List.length_replicate] at this
      cases this

theorem shorts_ok : shorts.Ok where
  pid := by decide
  sid := by decide
  codec := fun _ _ _ h => by cases h
  pieces := by decide +kernel
  fits := by
    intro f hf
    have := List.eq_of_mem_replicate (show f ∈ List.replicate 17 _ from hf)
    subst this
    refine ⟨List.replicate 12 (List.replicate 10 0x41), by decide +kernel, by decide +kernel, ?_⟩
    show _ ++ [] = _
    rw [List.append_nil, List.map_replicate]

/-- Without the alignment of frames the size is wrong: 6392 is announced, 9400 bytes are written. -/
theorem not_size_without_alignment : ¬ SizeIsAnnounced false True := by
  intro h
  have h1 : ∃ ps, segment false [waiting.track, small.track] = .ok ps ∧ announced false [waiting.track, small.track] ≠ 376 + ps.flatten.length := by
    have : (match segment false [waiting.track, small.track] with
        | .ok ps => decide (announced false [waiting.track, small.track] ≠ 376 + ps.flatten.length)
        | _ => false) = true := by decide +kernel
    split at this
    · rename_i ps e
      exact ⟨ps, e, of_decide_eq_true this⟩
    · cases this
  obtain ⟨ps, e1, e2⟩ := h1
  refine e2 (h [waiting, small] (by decide) ?_ ?_ ps e1)
  · intro s hs
    simp only [List.mem_cons, List.not_mem_nil, or_false] at hs
    rcases hs with rfl | rfl
    · exact waiting_ok
    · exact small_ok
  · intro _ s hs hevc k extra hk
    simp only [List.mem_cons, List.not_mem_nil, or_false] at hs
    rcases hs with rfl | rfl <;> cases hk
    rfl

/-- With lengths of two bytes the size is wrong: 6392 is announced, 9400 bytes are written. -/
theorem not_size_of_short_lengths : ¬ SizeIsAnnounced true False := by
  intro h
  have h1 : ∃ ps, segment true [shorts.track] = .ok ps ∧ announced true [shorts.track] ≠ 376 + ps.flatten.length := by
    have : (match segment true [shorts.track] with
        | .ok ps => decide (announced true [shorts.track] ≠ 376 + ps.flatten.length)
        | _ => false) = true := by decide +kernel
    split at this
    · rename_i ps e
      exact ⟨ps, e, of_decide_eq_true this⟩
    · cases this
  obtain ⟨ps, e1, e2⟩ := h1
  refine e2 (h [shorts] (by decide) ?_ (fun h => h.elim) ps e1)
  intro s hs
  rw [List.mem_singleton] at hs
  subst hs
  exact shorts_ok

/-! ## C87 and C88: tables -/

/-- HEVC, AAC and ID3: the pids and ids. -/
example : (tables 18 [.hevc, .aac, .id3]).map Prod.snd =
    .ok [⟨.video, 0x100, 0xe0, true⟩, ⟨.audio, 0x101, 0xc0, false⟩, ⟨.id3, 0x102, 0xbd, false⟩] := by decide +kernel

example : ([StreamType.hevc, .aac, .id3].map fun t => 5 + (MtsSpec.descOf t).length).sum < 150 := by decide

example : ∃ is : List Info, ∀ i ∈ is, i.pcr = true ↔ i.pid = 0x100 := by
  have h : tables 18 [.hevc, .aac, .id3] = .ok ((initTables 18).adds [.hevc, .aac, .id3] |>.map (fun r => (r.1.finalize, r.2)) |> fun
    | .ok r => r
    | _ => ([], [])) := by decide +kernel
  exact ⟨_, pcr_pid_partial 18 [.hevc, .aac, .id3] .hevc rfl rfl h⟩

/-- Thirty entries of five bytes are too many. -/
example : tables 0 (List.replicate 30 .aac) = .err := by decide +kernel

/-- The full claim: the pid of the PCR in the program map table (0x100) is that of the stream with the PCR. -/
def PcrPid : Prop :=
  ∀ (index : Nat) (ts : List StreamType) (ps : List (List UInt8)) (is : List Info), tables index ts = .ok (ps, is) → ∀ i ∈ is, i.pcr = true ↔ i.pid = 0x100

/-- A segment of audio has its PCR on pid 0x101, and a table that says 0x100. -/
theorem not_pcr_pid : ¬ PcrPid := by
  intro h
  have h1 : ∃ ps, tables 0 [.aac] = .ok (ps, [⟨.audio, 0x101, 0xc0, true⟩]) := ⟨_, rfl⟩
  obtain ⟨ps, e⟩ := h1
  have := (h 0 [.aac] ps _ e ⟨.audio, 0x101, 0xc0, true⟩ (by simp)).mp rfl
  cases this

end Verif.Mts.Cases
