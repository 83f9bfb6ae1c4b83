import Verif.Rbsp

/-!
# Configuration of AAC in the packager

Model of /repo/nginx-pckg-module/src/media/codec_config.c:475-538.
-/

namespace Verif.AacCfg

open Verif.Rbsp

/-- An object type, codec_config.c:488-490 and 518-522. -/
def objType (r : R) : Res (Nat × R) := R.get 5 0 r >>= fun x => if x.1 = 31 then (R.get 6 0 x.2).map fun y => (32 + y.1, y.2) else .ok x

/-- The index of a sample rate, codec_config.c:492-494 and 507-511. -/
def rateIdx (r : R) : Res (Nat × R) := R.get 4 0 r >>= fun x => if x.1 = 15 then (R.get 24 0 x.2).map fun y => (x.1, y.2) else .ok x

/-- Whether parametric stereo is meant, codec_config.c:505; the reader is a copy. -/
def isPs (r : R) : Res Bool := R.get 3 0 r >>= fun x => if x.1 % 4 ≠ 0 then (R.get 9 0 x.2).map fun y => decide (y.1 % 64 ≠ 0) else .ok true

/-- Whether an extension follows, codec_config.c:504-505. -/
def hasExt (a : Nat) (r : R) : Res Bool := if a = 5 then .ok true else if a = 29 then isPs r else .ok false

/-- The extension, codec_config.c:507-527; `none` is bad data. -/
def extType (r : R) : Res (Option Nat) := rateIdx r >>= fun g => if g.2.eof then .ok none else (objType g.2).map fun e => if e.2.eof then none else some e.1

/-- `codec_config_mp4a_config_parse`, codec_config.c:475-538: object type, index of the sample rate, channel configuration. -/
def mp4a (b : List UInt8) : Res (Option (Nat × Nat × Nat)) :=
  objType (R.init b) >>= fun a => rateIdx a.2 >>= fun f => R.get 4 0 f.2 >>= fun c =>
    if c.2.eof then .ok none
    else hasExt a.1 c.2 >>= fun x => if x then (extType c.2).map fun o => o.map fun e => (e, f.1, c.1) else .ok (some (a.1, f.1, c.1))

end Verif.AacCfg
