import Verif.RbspSpec

/-!
# Configuration of AAC

ISO/IEC 14496-3, 1.6.2.1 and 1.6.3. Of the model nothing is used.
-/

namespace Verif.AacCfgSpec

open Verif.RbspSpec

/-- Object types are below 96 and not 31, the escape. -/
def TypeOk (a : Nat) : Prop := a < 31 ∨ 32 ≤ a ∧ a < 96

def typeBits (a : Nat) : List Bool := if a < 31 then bin 5 a else bin 5 31 ++ bin 6 (a - 32)

/-- A sample rate: an index, or the rate itself. -/
inductive Rate
  | index (i : Nat)
  | hz (f : Nat)
deriving DecidableEq, Repr

def Rate.Ok : Rate → Prop
  | .index i => i < 15
  | .hz f => f < 2 ^ 24

def Rate.idx : Rate → Nat
  | .index i => i
  | .hz _ => 15

def Rate.bits : Rate → List Bool
  | .index i => bin 4 i
  | .hz f => bin 4 15 ++ bin 24 f

/-- The start of a configuration: object type, rate, channels, and for SBR (5) and PS (29) the extension with the rate and the type of the stream beneath. -/
structure Cfg where
  type : Nat
  rate : Rate
  chan : Nat
  ext : Option (Rate × Nat)

structure Cfg.Ok (c : Cfg) : Prop where
  type : TypeOk c.type
  rate : c.rate.Ok
  chan : c.chan < 16
  ext : c.ext ≠ none ↔ c.type = 5 ∨ c.type = 29
  extOk : ∀ e, c.ext = some e → e.1.Ok ∧ TypeOk e.2

def extBits : Option (Rate × Nat) → List Bool
  | none => []
  | some e => e.1.bits ++ typeBits e.2

def Cfg.bits (c : Cfg) : List Bool := typeBits c.type ++ (c.rate.bits ++ (bin 4 c.chan ++ extBits c.ext))

/-- What is beneath, if there is an extension. -/
def Cfg.base (c : Cfg) : Nat :=
  match c.ext with
  | none => c.type
  | some e => e.2

end Verif.AacCfgSpec
