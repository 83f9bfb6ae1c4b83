import Verif.CencProps

/-!
# Common encryption: cases and counterexamples
-/

namespace Verif.Cenc

/-- A stand-in for AES. -/
def toy : Cipher := ⟨fun b => (List.range 16).map (fun i => (b.getD i 0) * 7 + UInt8.ofNat i + 0x5a), fun _ => by simp⟩

def toyPar : Par := ⟨toy, 16, 4, false⟩

/-- Two frames: a parameter set and a slice, and a slice of two blocks. -/
def toyFrames : List (List (List UInt8)) := [[[0x67, 1, 2], [0x65, 3, 4, 5, 6]], [0x41 :: List.replicate 40 9]]

/-- The hypotheses of `video_exact` and `video_decrypts_partial` hold for it, with the data in one buffer or byte by byte. -/
example : toyPar.Ok ∧ Wf 4 [16, 45] toyFrames ∧ (∃ us, toyFrames.getLast? = some us ∧ us ≠ []) ∧ (∀ us ∈ toyFrames, Fit toyPar us) ∧
    (∀ us ∈ toyFrames, us.length ≤ 40) ∧ [plains 4 toyFrames].flatten = plains 4 toyFrames ∧
    ((plains 4 toyFrames).map (fun b => [b])).flatten = plains 4 toyFrames := by
  refine ⟨⟨by decide, by decide, by decide⟩, ⟨?_, by decide +kernel⟩, ⟨_, rfl, by simp⟩, ?_, by decide, by decide +kernel, by decide +kernel⟩
  · intro us h u hu
    simp only [toyFrames, List.mem_cons, List.not_mem_nil, or_false] at h
    rcases h with h | h <;> subst h <;> simp only [List.mem_cons, List.not_mem_nil, or_false] at hu
    · rcases hu with h | h <;> subst h <;> decide
    · subst hu; decide
  · intro us h u hu
    simp only [toyFrames, List.mem_cons, List.not_mem_nil, or_false] at h
    rcases h with h | h <;> subst h <;> simp only [List.mem_cons, List.not_mem_nil, or_false] at hu
    · rcases hu with h | h <;> subst h <;> decide
    · subst hu; decide

/-- The output byte by byte: the first frame is clear up to the type of the slice; a player gets everything back. -/
example : ((V.init toyPar (be64 5) [16, 45]).writeAll toyPar ((plains 4 toyFrames).map (fun b => [b]))).map (fun s =>
      (s.done, s.sizes, s.wb.sent.take 12 == (plains 4 toyFrames).take 12, s.wb.sent.drop 12 != (plains 4 toyFrames).drop 12,
        decFrag toy [16, 45] s.aux s.wb.sent == some (plains 4 toyFrames))) = .ok (true, [22, 16], true, true, true) := by decide +kernel

/-- Data that is no fragment is refused: a unit of size 0, one that is larger than its frame, and one after which not even a size fits. -/
example : ([[0, 0, 0, 0, 0x65], [0, 0, 0, 12, 0x65], [0, 0, 0, 9, 0x65]] : List (List UInt8)).map (fun d => (V.init toyPar (be64 5) [15]).write toyPar d) =
    [.err, .err, .err] := by decide +kernel

/-- The hypotheses of `audio_decrypts_partial`, with an empty frame in between. -/
example : (∃ f, [3, 0, 20].getLast? = some f ∧ f ≠ 0) ∧ ([[1, 2], [3, 4, 5], List.replicate 18 6] : List (List UInt8)).flatten.length = [3, 0, 20].sum := by
  refine ⟨⟨20, rfl, by decide⟩, by decide⟩

example : ((A.init (be64 5) [3, 0, 20]).writeAll toy 16 [[1, 2], [3, 4, 5], List.replicate 18 6]).map (fun s =>
      (s.done, s.wb.sent.length, decAudio toy [3, 0, 20] (audioAux (be64 5) 3) s.wb.sent == some ([1, 2, 3, 4, 5] ++ List.replicate 18 6))) =
    .ok (true, 23, true) := by decide +kernel

/-- The hypotheses of `ivs_fresh_partial`: 60 frames in each second, segments of 2 s. -/
example : (firstIv [0, 0, 0, 0, 0, 0, 1, 0] 900000 90000).map (fun x => x == be64 856) = .ok true ∧
    (firstIv [0, 0, 0, 0, 0, 0, 1, 0] 1080000 90000).map (fun x => x == be64 976) = .ok true ∧ 120 * 90000 ≤ 60 * (1080000 - 900000) := by decide +kernel

/-- The hypothesis of `Ctr.process_exact`: a new IV, and the same in the middle of a block. -/
example : (Ctr.setIv (be64 5)).At toy (be64 5) 0 ∧ ∃ s, (Ctr.setIv (be64 5)).process toy [1, 2, 3] = .ok (s, xorAt (stream toy (be64 5)) 0 [1, 2, 3]) ∧ s.At toy (be64 5) 3 :=
  ⟨Ctr.setIv_at _ (be64_length _), Ctr.process_exact (Ctr.setIv_at _ (be64_length _)) _⟩

/-! ## Counterexamples -/

/-- A unit that is not a slice has 64 KB with its size: its subsample says that it has no bytes, and a player cannot decrypt the frame. -/
theorem large_unit_fails {P : Par} (hP : P.Ok) (h3 : 2 < P.n) (v : Nat) {b : UInt8} (hb : isSlice P b = false) {u : List UInt8} (hu : P.n + (u.length + 1) = 65536) :
    ∃ s, (V.init P (be64 v) [65536]).writeAll P [unit P.n (b :: u)] = .ok s ∧ s.done = true ∧ decFrag P.E [65536] s.aux s.wb.sent = none := by
  have hn4 := hP.n4
  have h16 : 256 ^ 3 ≤ 256 ^ P.n := Nat.pow_le_pow_right (by omega) h3
  have hpl : plain P.n [b :: u] = unit P.n (b :: u) := by simp [plain]
  have hlen : (unit P.n (b :: u)).length = 65536 := by rw [unit_length]; exact hu
  have hw : Wf P.n [65536] [[b :: u]] := by
    constructor
    · intro us h w hw
      simp at h; subst h
      simp at hw; subst hw
      simp only [List.length_cons]
      omega
    · simp only [List.map_cons, List.map_nil]; rw [hpl, hlen]
  obtain ⟨s, h1, h2, h3, _, h5⟩ := video_exact hP v hw ⟨_, rfl, by simp⟩ (bufs := [unit P.n (b :: u)]) (by simp [plains, hpl])
  refine ⟨s, h1, h2, ?_⟩
  rw [h3, h5 (by simp)]
  have hsub : unitSub P (b :: u) = [0, 0, 0, 0, 0, 0] := by
    simp only [unitSub, sliced, hb, subBytes, List.length_cons, hu, Bool.false_eq_true, if_false]
    decide +kernel
  have hent : entries P v [[b :: u]] = be64 v ++ [0, 1, 0, 0, 0, 0, 0, 0] := by
    simp only [entries, entry, List.flatMap_cons, List.flatMap_nil, hsub, List.append_nil, List.append_assoc]
    rw [show beN 2 [b :: u].length = [0, 1] from by simp only [List.length_singleton]; decide +kernel]
    rfl
  have hout : (outs P v [[b :: u]]).length = 65536 := by
    simp only [outs, List.append_nil]
    rw [encUnits_length, hpl, hlen]
  have hre : readEntry (be64 v ++ [0, 1, 0, 0, 0, 0, 0, 0]) = some (be64 v, [(0, 0)], []) := by
    have h8 := be64_length v
    have e : (be64 v ++ [0, 1, 0, 0, 0, 0, 0, 0]).drop 10 = [0, 0, 0, 0, 0, 0] := by
      rw [show 10 = 8 + 2 from rfl, ← List.drop_drop, List.drop_left' h8]; rfl
    rw [readEntry, if_neg (by rw [List.length_append, h8]; decide), e, List.drop_left' h8, List.take_left' h8]
    have : readSubs (num (([0, 1, 0, 0, 0, 0, 0, 0] : List UInt8).take 2)) [0, 0, 0, 0, 0, 0] = some ([(0, 0)], []) := by decide +kernel
    rw [this]; rfl
  rw [hent, decFrag, if_neg (by omega), hre, Option.bind_some]
  dsimp only
  cases ho : outs P v [[b :: u]] with
  | nil => rw [ho] at hout; simp at hout
  | cons x xs =>
    rw [List.take_of_length_le (by rw [← ho, hout]; exact Nat.le_refl _)]
    simp [decSub]

/-- A frame with 41 units: the size of its auxiliary data is 256, and the list of sizes says 0. -/
theorem many_units_fail : ((V.init ⟨toy, 16, 1, false⟩ (be64 0) [82]).write ⟨toy, 16, 1, false⟩ (plain 1 (List.replicate 41 [6]))).map
    (fun s => (s.done, readSaiz (saiz s.sizes), s.aux.length)) = .ok (true, [0], 256) := by decide +kernel

/-- An empty frame at the end: all bytes were written, but neither the rest of the output nor the header is sent. -/
theorem empty_last_fails : ((V.init { toyPar with bs := 64 } (be64 0) [8, 0]).write { toyPar with bs := 64 } [0, 0, 0, 4, 0x65, 1, 2, 3]).map
    (fun s => (s.done, s.wb.sent, s.wb.buf.length, s.aux.length)) = .ok (false, [], 8, 16) := by decide +kernel

theorem audio_empty_last_fails : ((A.init (be64 0) [3, 0]).write toy 16 [1, 2, 3]).map (fun s => (s.done, s.wb.sent, s.wb.buf.length)) = .ok (false, [], 3) := by
  decide +kernel

/-- 120 frames in each second, segments of 2 s: frame 120 of a segment has the IV of the first frame of the next one. -/
theorem fast_repeats : (firstIv [0, 0, 0, 0, 0, 0, 1, 0] 900000 90000).map (fun x => x == be64 856) = .ok true ∧
    firstIv [0, 0, 0, 0, 0, 0, 1, 0] (900000 + 240 * 750) 90000 = .ok (be64 (856 + 120)) := by decide +kernel

/-- AAC with 96000 samples in each second, 1024 in each frame, segments of 375 frames (4 s): frame 240 has the IV of the first frame of the
next segment. -/
theorem fast_audio_repeats : firstIv [0, 0, 0, 0, 0, 0, 1, 0] 0 96000 = .ok (be64 256) ∧
    firstIv [0, 0, 0, 0, 0, 0, 1, 0] (375 * 1024) 96000 = .ok (be64 (256 + 240)) := by decide +kernel

end Verif.Cenc
