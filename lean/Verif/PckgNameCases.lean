import Verif.PckgNameProps

/-! # C105: cases, and what does not hold -/

namespace Verif.PName

open Verif.Sub (str)
open Verif.PNameSpec

/-- A listed segment of a variant with bytes that are escaped. -/
example : write (str "a b%") 3 (.seg (str ".ts") 41) = str "seg-42-sa%20b%25-va.ts" ∧
    ask (str "/hls/ch/t") (write (str "a b%") 3 (.seg (str ".ts") 41)) =
      some (.ts, { seg := 41, variants := str "a b%", mask := 3, count := 2 }) := by decide +kernel

example : validId (str "a b%") = true ∧ 0 ∉ str "a b%" ∧ Listed 3 (.seg (str ".ts") 41) ∧ ¬ Ambiguous (str "a b%") 3 (.seg (str ".ts") 41) := by
  refine ⟨by decide, by decide, ⟨by decide, (.ts, 3), by decide, ?_⟩, ?_⟩
  · exact .inr (by decide)
  · intro h; exact absurd h.1 (by decide)

/-- A part of a variant whose id ends like a file name. -/
example : ask (str "/a.b/c") (write (str "x.key") 1 (.part (str ".m4s") 7 2)) =
    some (.m4s, { seg := 7, part := 2, variants := str "x.key", mask := 1, count := 1 }) := by decide +kernel

example : Listed 1 (.part (str ".m4s") 7 2) := ⟨by decide, by decide, by decide, (.m4s, 7), by decide, .inr (by decide)⟩

example : ask [] (write (str "v") 5 .index) = some (.index, { variants := str "v", mask := 5, count := 2 }) ∧
    ask [] (write (str "v") 7 (.init 0)) = some (.mp4, { seg := 0, variants := str "v", mask := 7, count := 3 }) ∧
    ask [] (write (str "v") 2 .keyTrack) = some (.key, { variants := str "v", mask := 2, count := 1 }) ∧
    ask [] (write (str "v") 2 .keyType) = some (.key, { mask := 2, count := 1 }) := by decide +kernel

/-- The names of a playlist, with whichever media types. -/
def AnyListed (m : Nat) : Name → Prop
  | .seg ext i => i < 2 ^ 32 - 1 ∧ (container ext).isSome ∧ 0 < m ∧ m < 8
  | .init i => i < 2 ^ 32 - 1 ∧ 0 < m ∧ m < 8
  | _ => False

/-- The full claim: the names of all valid variants are found. -/
def NameFound : Prop := ∀ (id : Bytes) (m : Nat) (n : Name) (dir : Bytes), validId id = true → AnyListed m n →
  ∃ hr, meaning id m n = some hr ∧ ask dir (write id m n) = some hr

/-- Not for a variant `tpp` in fMP4: the end of `seg-1-stpp.m4s` is taken for a format of subtitles. -/
theorem name_found_fails_tpp : ¬ NameFound := by
  intro h
  obtain ⟨hr, _, h2⟩ := h (str "tpp") 7 (.seg (str ".m4s") 0) [] (by decide) ⟨by decide, by decide, by decide, by decide⟩
  have k : ask [] (write (str "tpp") 7 (.seg (str ".m4s") 0)) = none := by decide +kernel
  rw [k] at h2; cases h2

/-- Not for MPEG-TS when a variant has video and subtitles: `-vt` is refused. -/
theorem name_found_fails_types : ¬ NameFound := by
  intro h
  obtain ⟨hr, _, h2⟩ := h (str "v") 5 (.seg (str ".ts") 0) [] (by decide) ⟨by decide, by decide, by decide, by decide⟩
  have k : ask [] (write (str "v") 5 (.seg (str ".ts") 0)) = none := by decide +kernel
  rw [k] at h2; cases h2

/-- Not for an id with a zero byte, which the channel accepts and no request can have. -/
theorem name_found_fails_zero : ¬ NameFound := by
  intro h
  obtain ⟨hr, _, h2⟩ := h [0] 1 (.seg (str ".ts") 0) [] (by decide) ⟨by decide, by decide, by decide, by decide⟩
  have k : ask [] (write [0] 1 (.seg (str ".ts") 0)) = none := by decide +kernel
  rw [k] at h2; cases h2

/-- Names of keys are for at most one variant; two are refused before media types, but not at the end of the name. -/
theorem key_two_variants : ask [] (str "enc-sa-sb.key") = some (.key, { variants := str "a-b", mask := 3, count := 2 }) ∧
    ask [] (str "enc-sa-sb-v.key") = none := by decide +kernel

end Verif.PName
