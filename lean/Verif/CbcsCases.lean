import Verif.CbcsUnits
import Verif.CbcCases

/-!
# The scheme cbcs: cases
-/

namespace Verif.Cbcs

open Verif.Cenc (Cipher WB)
open Verif.Cbc (toy toyD toy_undoes iv0)
open Verif.CbcSpec (Undoes)
open Verif.CbcsSpec

def par (bs : Nat) : Par := ⟨toy, iv0, bs⟩

/-- Sizes of 4 bytes, slices as in avc_parser.c:1005-1029, and headers whose size is their second byte. -/
def avc : Codec where
  n := 4
  hdr := 1
  isSlice t := if t &&& 0x1f = 1 ∨ t &&& 0x1f = 5 then .ok true else if 2 ≤ t &&& 0x1f ∧ t &&& 0x1f ≤ 4 then .err else .ok false
  head b := match b with
    | _ :: h :: _ => if 2 ≤ h.toNat ∧ h.toNat ≤ b.length then .ok h.toNat else .err
    | _ => .err

theorem avc_own : Own (fun b => toOpt (avc.head b)) := by
  intro b b' h hb
  rcases b with _ | ⟨a, _ | ⟨c, b⟩⟩
  · simp [avc, toOpt] at hb
  · simp [avc, toOpt] at hb
  · simp only [avc] at hb
    by_cases hc : 2 ≤ c.toNat ∧ c.toNat ≤ (a :: c :: b).length
    · rw [if_pos hc] at hb
      simp only [toOpt, Option.some.injEq] at hb
      subst hb
      refine ⟨hc.1, hc.2, ?_⟩
      intro hl ht
      obtain ⟨m, hm⟩ : ∃ m, c.toNat = m + 2 := ⟨c.toNat - 2, by omega⟩
      rcases b' with _ | ⟨a', _ | ⟨c', b'⟩⟩
      · simp at hl
      · simp at hl
      · rw [hm] at ht
        simp only [List.take_succ_cons, List.cons.injEq] at ht
        simp only [avc]
        rw [ht.2.1, if_pos (by simp only [List.length_cons] at hl hc ⊢; omega)]
        rfl
    · rw [if_neg hc] at hb
      simp [toOpt] at hb

theorem avc_slice (t : UInt8) : avc.isSlice t ≠ .ub := by
  simp only [avc]
  split
  · simp
  · split <;> simp

theorem avc_head (b : List UInt8) : avc.head b ≠ .ub := by
  rcases b with _ | ⟨a, _ | ⟨c, b⟩⟩ <;> simp only [avc]
  · simp
  · simp
  · split <;> simp

/-! ## C122 -/

/-- Frames with full blocks, without, and without data. -/
example : (match serve (par 32) none [List.replicate 35 9, [], [1, 2, 3], List.replicate 16 8] with
    | .ok s => s.length == 54 && decAudio toyD iv0 (s.take 35) == List.replicate 35 9 && s.take 35 != List.replicate 35 9 && (s.drop 35).take 3 == [1, 2, 3]
    | _ => false) = true := by decide +kernel

/-- A frame with more full blocks than an output buffer holds is refused. -/
theorem audio_refused {P : Par} {wb : WB} (hw : wb.cap ≤ P.bs) {d : List UInt8} (hd : P.bs < d.length / 16 * 16) : audio P wb d = .err := by
  have hm : d.length - d.length % 16 = d.length / 16 * 16 := by omega
  have hr : ∀ m, P.bs < m → wb.room P.bs m = .err := by
    intro m h
    unfold WB.room
    by_cases h1 : wb.buf.length + m > wb.cap
    · simp only [if_pos h1]
      rw [if_pos (by simp [WB.flush]; omega)]
    · simp only [if_neg h1]
      rw [if_pos (by omega)]
  unfold audio writeEnc
  rw [hm, if_pos (by omega), hr _ (by rw [List.length_take]; omega)]
  rfl

/-! ## C123 -/

/-- The units of a frame: parameters, and a slice with a header of 20 bytes. -/
def frame : List UInt8 := [0, 0, 0, 3, 7, 1, 2] ++ [0, 0, 1, 0x2c] ++ ([5, 20] ++ (List.range 298).map UInt8.ofNat)

theorem frame_units : Units 4 [[7, 1, 2], [5, 20] ++ (List.range 298).map UInt8.ofNat] frame := by
  have h := Units.cons (n := 4) (s := [0, 0, 0, 3]) (u := [7, 1, 2]) rfl (by decide) (by simp)
    (Units.cons (n := 4) (s := [0, 0, 1, 0x2c]) (u := [5, 20] ++ (List.range 298).map UInt8.ofNat) rfl (by decide +kernel) (by simp) Units.nil)
  rw [List.append_nil] at h
  exact h

theorem frame_good : Good 4 1 (fun t => toOpt (avc.isSlice t)) (fun b => toOpt (avc.head b)) frame := by
  refine ⟨_, frame_units, ?_⟩
  intro u hu
  simp only [List.mem_cons, List.not_mem_nil, or_false] at hu
  rcases hu with rfl | rfl
  · exact ⟨by decide, 7, false, rfl, by decide, fun h => by cases h⟩
  · exact ⟨by decide +kernel, 5, true, rfl, by decide, fun _ _ => ⟨20, by decide +kernel⟩⟩

theorem units_unique {n : Nat} : ∀ {us vs : List (List UInt8)} {d : List UInt8}, Units n us d → Units n vs d → us = vs
  | [], [], _, _, _ => rfl
  | [], v :: vs, d, h1, h2 => by
    cases h1
    obtain ⟨a1, -, a3, -⟩ := Units_ne h2
    simp at a1
    exact absurd a1 a3
  | u :: us, [], d, h1, h2 => by
    cases h2
    obtain ⟨a1, -, a3, -⟩ := Units_ne h1
    simp at a1
    exact absurd a1 a3
  | u :: us, v :: vs, d, h1, h2 => by
    obtain ⟨a1, a2, -, a4, a5⟩ := Units_ne h1
    obtain ⟨b1, b2, -, b4, -⟩ := Units_ne h2
    have hl : u.length = v.length := by rw [← a2, ← b2]
    rw [hl] at a1 a4
    have e := a1.trans b1.symm
    rw [List.append_assoc, List.append_assoc] at e
    have e := List.append_inj_left (List.append_cancel_left e) hl
    rw [e, units_unique a4 b4]

theorem frame_end : ¬ ShortEnd 4 (fun t => toOpt (avc.isSlice t)) (fun b => toOpt (avc.head b)) frame := by
  rintro ⟨us, u, h1, h2, h3⟩
  rw [units_unique h1 frame_units] at h2
  simp only [List.getLast?_cons_cons, List.getLast?_singleton, Option.some.injEq] at h2
  subst h2
  rcases h3 with h | ⟨-, h, -⟩
  · simp at h
  · simp at h

/-- The hypotheses of `video_partial` hold for segments of this frame, and of an end of sequence within. -/
example : ∃ s, serve (par 64) (some avc) [frame, [0, 0, 0, 1, 10], [], frame] = .ok s := by
  refine (video_partial (D := toyD) (by decide) (by decide) rfl toy_undoes avc_own avc_slice avc_head _ ?_).2.1 ?_
  · intro d hd
    simp only [List.filter, bne] at hd
    have : d = frame := by
      have h : ([frame, [0, 0, 0, 1, 10], frame] : List (List UInt8)).getLast? = some d := hd
      simpa using h.symm
    rw [this]
    exact frame_end
  · intro d hd hne
    simp only [List.mem_cons, List.not_mem_nil, or_false] at hd
    rcases hd with rfl | rfl | rfl | rfl
    · exact frame_good
    · refine ⟨[[10]], Units.cons (n := 4) (s := [0, 0, 0, 1]) (u := [10]) rfl (by decide) (by simp) Units.nil, ?_⟩
      intro u hu
      simp only [List.mem_cons, List.not_mem_nil, or_false] at hu
      subst hu
      exact ⟨by decide, 10, false, rfl, by decide, fun h => by cases h⟩
    · exact absurd rfl hne
    · exact frame_good

example : (match serve (par 64) (some avc) [frame] with
    | .ok s => s.length == 311 && s.take 31 == frame.take 31 && (s.drop 31).take 16 != (frame.drop 31).take 16 && (s.drop 47).take 144 == (frame.drop 47).take 144 &&
        (s.drop 191).take 16 != (frame.drop 191).take 16 && s.drop 207 == frame.drop 207
    | _ => false) = true := by decide +kernel

/-- C123 for all frames. -/
def Videos : Prop := ∀ (P : Par) (C : Codec) (D : List UInt8 → List UInt8) (frames : List (List UInt8)), 16 ≤ P.bs → C.n + 1 ≤ P.bs → P.iv.length = 16 → Undoes D P.E.enc →
  Own (fun b => toOpt (C.head b)) → (∀ t, C.isSlice t ≠ .ub) → (∀ b, C.head b ≠ .ub) →
  (∀ d ∈ frames, d ≠ [] → Good C.n C.hdr (fun t => toOpt (C.isSlice t)) (fun b => toOpt (C.head b)) d) →
  ∃ xs, serve P (some C) frames = .ok xs.flatten ∧ Each (Video D P.iv C.n (fun t => toOpt (C.isSlice t)) (fun b => toOpt (C.head b))) xs frames

/-- A segment that ends with a unit of one byte, as an end of sequence, is not sent to its end. -/
theorem not_videos : ¬ Videos := by
  intro h
  obtain ⟨xs, h1, h2⟩ := h (par 65536) avc toyD [[0, 0, 0, 1, 10]] (by decide) (by decide) rfl toy_undoes avc_own avc_slice avc_head (by
    intro d hd _
    simp only [List.mem_cons, List.not_mem_nil, or_false] at hd
    subst hd
    refine ⟨[[10]], Units.cons (n := 4) (s := [0, 0, 0, 1]) (u := [10]) rfl (by decide) (by simp) Units.nil, ?_⟩
    intro u hu
    simp only [List.mem_cons, List.not_mem_nil, or_false] at hu
    subst hu
    exact ⟨by decide, 10, false, rfl, by decide, fun h => by cases h⟩)
  have hs : serve (par 65536) (some avc) [[0, 0, 0, 1, 10]] = .ok [] := by decide +kernel
  rw [hs] at h1
  cases h2 with
  | cons hv he =>
    cases he
    obtain ⟨us, vs, v1, v2, -, v3⟩ := hv
    simp only [List.flatten_cons, List.flatten_nil, List.append_nil, Res.ok.injEq] at h1
    rw [← h1] at v1
    have := units_unique v1 Units.nil
    subst this
    have hvs : vs = [] := by simpa using v3.symm
    subst hvs
    cases v2

end Verif.Cbcs
