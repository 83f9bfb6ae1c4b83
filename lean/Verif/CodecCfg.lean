import Verif.Basic

/-!
# Codec configuration records of H.264 and H.265 in the packager

Model of /repo/nginx-pckg-module/src/media/codec_config.c:20-230 and of its use in ngx_pckg_ksmp.c. Failing allocations are not modelled.
-/

namespace Verif.CodecCfg

/-- `read_be16`, read_stream.h:9,15. -/
def be16 (h l : UInt8) : Nat := h.toNat * 256 + l.toNat

/-- The loop over units, codec_config.c:67-88 and 172-193: the size so far and the rest. -/
def unitsSize : Nat → Nat → List UInt8 → Option (Nat × List UInt8)
  | 0, s, b => some (s, b)
  | n + 1, s, h :: l :: t => if t.length < be16 h l then none else unitsSize n (s + (4 + be16 h l)) (t.drop (be16 h l))
  | _ + 1, _, _ => none

/-- The loop over units, codec_config.c:106-118 and 214-226: the output and the rest. There are no checks; reading beyond the end is undefined. -/
def unitsWrite : Nat → List UInt8 → Res (List UInt8 × List UInt8)
  | 0, b => .ok ([], b)
  | n + 1, h :: l :: t => if t.length < be16 h l then .ub else (unitsWrite n (t.drop (be16 h l))).map fun x => (0 :: 0 :: 0 :: 1 :: (t.take (be16 h l) ++ x.1), x.2)
  | _ + 1, _ => .ub

/-! ## H.264 -/

/-- `codec_config_avcc_get_nal_length_size`, codec_config.c:20-34; 0 is an error. -/
def avccLen (b : List UInt8) : Nat := if b.length < 5 then 0 else b[4]!.toNat % 4 + 1

/-- The loop of two in `codec_config_avcc_nal_units_get_size`, codec_config.c:58-89. -/
def avccSizes : Nat → Nat → List UInt8 → Option Nat
  | 0, s, _ => some s
  | i + 1, s, c :: t => (unitsSize (c.toNat % 32) s t).bind fun x => avccSizes i x.1 x.2
  | _ + 1, _, [] => none

/-- `codec_config_avcc_nal_units_get_size`, codec_config.c:36-92. -/
def avccSize (b : List UInt8) : Nat := if b.length < 5 then 0 else (avccSizes 2 0 (b.drop 5)).getD 0

/-- The loop of two in `codec_config_avcc_nal_units_write`, codec_config.c:104-119. -/
def avccWrites : Nat → List UInt8 → Res (List UInt8)
  | 0, _ => .ok []
  | i + 1, c :: t => unitsWrite (c.toNat % 32) t >>= fun x => (avccWrites i x.2).map fun y => x.1 ++ y
  | _ + 1, [] => .ub

/-- What is done with size and output, ngx_pckg_ksmp.c:895-919 and 966-990: `none` is bad data; more output than allocated is undefined, a different size is an error. -/
def fill (size : Nat) (w : Res (List UInt8)) : Res (Option (List UInt8)) :=
  if size = 0 then .ok none else w >>= fun o => if size < o.length then .ub else if o.length ≠ size then .err else .ok (some o)

/-- `ngx_pckg_ksmp_parse_avc_extra_data`, ngx_pckg_ksmp.c:888-926. -/
def avcc (b : List UInt8) : Res (Option (List UInt8)) := fill (avccSize b) (avccWrites 2 (b.drop 5))

/-! ## H.265 -/

/-- `codec_config_hvcc_get_nal_length_size`, codec_config.c:125-136. -/
def hvccLen (b : List UInt8) : Nat := if b.length < 22 then 0 else b[21]!.toNat % 4 + 1

/-- The loop over types in `codec_config_hvcc_nal_units_get_size`, codec_config.c:160-194. -/
def hvccSizes : Nat → Nat → List UInt8 → Option Nat
  | 0, s, _ => some s
  | i + 1, s, _ :: h :: l :: t => (unitsSize (be16 h l) s t).bind fun x => hvccSizes i x.1 x.2
  | _ + 1, _, _ => none

/-- `codec_config_hvcc_nal_units_get_size`, codec_config.c:138-197. -/
def hvccSize (b : List UInt8) : Nat := if b.length ≤ 22 then 0 else (hvccSizes b[22]!.toNat 0 (b.drop 23)).getD 0

/-- The loop over types in `codec_config_hvcc_nal_units_write`, codec_config.c:209-227. -/
def hvccWrites : Nat → List UInt8 → Res (List UInt8)
  | 0, _ => .ok []
  | i + 1, _ :: h :: l :: t => unitsWrite (be16 h l) t >>= fun x => (hvccWrites i x.2).map fun y => x.1 ++ y
  | _ + 1, _ => .ub

/-- `ngx_pckg_ksmp_parse_hevc_extra_data`, ngx_pckg_ksmp.c:959-997. -/
def hvcc (b : List UInt8) : Res (Option (List UInt8)) := fill (hvccSize b) (if b.length ≤ 22 then .ub else hvccWrites b[22]!.toNat (b.drop 23))

end Verif.CodecCfg
