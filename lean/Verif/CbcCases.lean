import Verif.CbcProps

/-!
# Segments that are encrypted as a whole: cases
-/

namespace Verif.Cbc

open Verif.Cenc (Cipher)
open Verif.CbcSpec (decode Undoes)

/-- A cipher that is easy to see through. -/
def toy : Cipher := ⟨fun b => (b.map (· ^^^ 0x5a)).reverse, fun b h => by simp [h]⟩

def toyD (b : List UInt8) : List UInt8 := b.reverse.map (· ^^^ 0x5a)

theorem toy_undoes : Undoes toyD toy.enc := by
  intro b _
  have : ∀ l : List UInt8, l.map ((fun x => x ^^^ 90) ∘ fun x => x ^^^ 90) = l := by
    intro l
    induction l with
    | nil => rfl
    | cons a l ih => simp only [List.map_cons, ih, Function.comp, UInt8.xor_assoc, UInt8.xor_self, UInt8.xor_zero]
  simp [toy, toyD, this]

def iv0 : List UInt8 := (List.range 16).map UInt8.ofNat

/-! ## C121 -/

/-- A head and frames that end within blocks, and their segment; the hypotheses of `serves_partial` hold. -/
example : (match serve toy iv0 (List.replicate 37 7) [[1], List.replicate 40 2, [3, 4]] with
    | .ok (s, n) => s.length == 96 && n == 96 && decode toyD iv0 s == some (List.replicate 37 7 ++ [1] ++ List.replicate 40 2 ++ [3, 4])
    | _ => false) = true := by decide +kernel

/-- A size that is a multiple of 16 has a block of padding. -/
example : (match serve toy iv0 [] [List.replicate 32 7] with
    | .ok (s, n) => s.length == 48 && n == 48 && decode toyD iv0 s == some (List.replicate 32 7)
    | _ => false) = true := by decide +kernel

/-- C121 for all frames. -/
def Serves : Prop := ∀ (E : Cipher) (D : List UInt8 → List UInt8) (iv head : List UInt8) (frames : List (List UInt8)), Undoes D E.enc → iv.length = 16 → head.length < 2 ^ 32 - 16 →
  (∀ f ∈ frames, f.length < 2 ^ 32 - 16) → ∃ s, serve E iv head frames = .ok (s, s.length) ∧ decode D iv s = some (head ++ frames.flatten)

/-- A frame without data is taken for the end. -/
theorem not_serves : ¬ Serves := by
  intro h
  obtain ⟨s, h1, -⟩ := h toy toyD iv0 [1] [[2], [], [3]] toy_undoes rfl (by decide) (by decide)
  have : serve toy iv0 [1] [[2], [], [3]] = .ub := by decide +kernel
  rw [this] at h1
  cases h1

end Verif.Cbc
