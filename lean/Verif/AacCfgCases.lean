import Verif.AacCfgProps

/-!
# Configuration of AAC: cases
-/

namespace Verif.AacCfg

open Verif.Rbsp Verif.RbspSpec Verif.AacCfgSpec

/-- AAC-LC, 44.1 kHz, stereo. -/
def lc : Cfg := ⟨2, .index 4, 2, none⟩

theorem lc_ok : lc.Ok := ⟨Or.inl (by decide), by show 4 < 15; decide, by decide, by decide, fun _ h => (by cases h)⟩

example : bits [0x12, 0x10] = lc.bits ++ bin 3 0 ∧ mp4a [0x12, 0x10] = .ok (some (2, 4, 2)) := by decide +kernel

/-- SBR with the rate as a number, over AAC-LC. -/
def sbr : Cfg := ⟨5, .index 7, 2, some (.hz 44100, 2)⟩

theorem sbr_ok : sbr.Ok := ⟨Or.inl (by decide), by show 7 < 15; decide, by decide, by decide, fun e h => (by cases h; exact ⟨by show 44100 < 2 ^ 24; decide, Or.inl (by decide)⟩)⟩

example : bits [0x2b, 0x97, 0x80, 0x56, 0x22, 0x08] = sbr.bits ++ bin 2 0 ∧ mp4a [0x2b, 0x97, 0x80, 0x56, 0x22, 0x08] = .ok (some (2, 7, 2)) := by decide +kernel

/-- Cut within the rate of the extension. -/
example : bits [0x2b, 0x97, 0x80] ++ sbr.bits.drop 24 = sbr.bits ∧ sbr.bits.drop 24 ≠ [] ∧ mp4a [0x2b, 0x97, 0x80] = .ok none := by decide +kernel

/-- PS with an index, over AAC-LC. -/
def ps : Cfg := ⟨29, .index 7, 1, some (.index 4, 2)⟩

theorem ps_ok : ps.Ok := ⟨Or.inl (by decide), by show 7 < 15; decide, by decide, by decide, fun e h => (by cases h; exact ⟨by show 4 < 15; decide, Or.inl (by decide)⟩)⟩

example : ps.type = 29 → ∀ e, ps.ext = some e → e.1.idx < 15 ∧ (e.2 % 8 ≠ 0 ∨ 31 < e.2) := by
  intro _ e h
  cases h
  decide

example : bits [0xeb, 0x8a, 0x08] = ps.bits ++ bin 2 0 ∧ mp4a [0xeb, 0x8a, 0x08] = .ok (some (2, 7, 1)) := by decide +kernel

/-- C129 in full: with any configuration. -/
def Configs : Prop :=
  (∀ (b : List UInt8) (c : Cfg) (t : List Bool), c.Ok → bits b = c.bits ++ t → mp4a b = .ok (some (c.base, c.rate.idx, c.chan))) ∧
    ∀ (b : List UInt8) (c : Cfg) (s : List Bool), c.Ok → s ≠ [] → bits b ++ s = c.bits → mp4a b = .ok none

/-- PS with the rate of the extension as a number. -/
def psHz : Cfg := ⟨29, .index 7, 1, some (.hz 44100, 2)⟩

theorem psHz_ok : psHz.Ok := ⟨Or.inl (by decide), by show 7 < 15; decide, by decide, by decide, fun e h => (by cases h; exact ⟨by show 44100 < 2 ^ 24; decide, Or.inl (by decide)⟩)⟩

/-- It is taken for something else: the type is 29 and not 2. -/
theorem not_configs : ¬ Configs := fun h => absurd (h.1 [0xeb, 0x8f, 0x80, 0x56, 0x22, 0x08] psHz (bin 2 0) psHz_ok (by decide +kernel)) (by decide +kernel)

/-- And PS that is cut is not refused. -/
example : bits [0xeb, 0x8f, 0x80] ++ psHz.bits.drop 24 = psHz.bits ∧ mp4a [0xeb, 0x8f, 0x80] = .ok (some (29, 7, 1)) := by decide +kernel

end Verif.AacCfg
