import Verif.KmpRtmpMem

/-!
# KMP to RTMP: what is written when something happens
-/

namespace Verif.KmpRtmp

set_option linter.unusedSimpArgs false

open Verif.RtmpSpec (Mess)
open Verif.AmfSpec (Value Fields enc)
open Verif.KmpRtmpSpec (St Sp act acts command num amf configs videoFields audioFields)

/-! ## Tags -/

theorem sound_eq (codec rate bits channels : Nat) : UInt8.ofNat (soundInfo codec rate bits channels) = KmpRtmpSpec.soundByte (codec - 1000) rate bits channels := by
  have key : ∀ x r b c : Nat, r < 4 → b < 2 → c < 2 → (x <<< 4 ||| r <<< 2 ||| b <<< 1 ||| c) = x * 16 + r * 4 + b * 2 + c := by
    intro x r b c hr hb hc
    have h1 : r <<< 2 ||| b <<< 1 ||| c = r * 4 + b * 2 + c := by
      obtain rfl | rfl | rfl | rfl : r = 0 ∨ r = 1 ∨ r = 2 ∨ r = 3 := by omega
      all_goals
        obtain rfl | rfl : b = 0 ∨ b = 1 := by omega
        all_goals
          obtain rfl | rfl : c = 0 ∨ c = 1 := by omega
          all_goals rfl
    rw [Nat.or_assoc, Nat.or_assoc, ← Nat.or_assoc (r <<< 2), h1, ← Nat.shiftLeft_add_eq_or_of_lt (by omega : r * 4 + b * 2 + c < 2 ^ 4), Nat.shiftLeft_eq]
    omega
  unfold soundInfo KmpRtmpSpec.soundByte
  rw [key _ _ _ _ (by (repeat' split) <;> omega) (by split <;> omega) (by split <;> omega)]
  apply UInt8.toNat_inj.1
  simp

theorem pts_eq (x : Int) : out24 (u32 x) = KmpRtmpSpec.si24 x := by
  unfold KmpRtmpSpec.si24
  rw [out24_be24]
  have e : (x % 2 ^ 24).toNat = u32 x % 2 ^ 24 := by
    unfold u32
    omega
  rw [e]
  generalize u32 x = y
  simp only [RtmpSpec.be24, List.cons.injEq, and_true]
  refine ⟨?_, ?_, ?_⟩ <;> apply UInt8.toNat_inj.1 <;> simp <;> omega

theorem avc_eq {packet : Nat} (key : Bool) (x : Int) : avcHeader packet key (u32 x) = KmpRtmpSpec.avcTag packet key x := by
  unfold avcHeader KmpRtmpSpec.avcTag
  rw [pts_eq]
  cases key <;> rfl

theorem ext_eq {packet : Nat} (hp : packet ≤ 1) (key : Bool) (x : Int) : extHeader packet key hvc1 (u32 x) = KmpRtmpSpec.hevcTag packet key x := by
  unfold extHeader KmpRtmpSpec.hevcTag
  rw [pts_eq]
  have : le32 hvc1 = txt "hvc1" := by decide +kernel
  rw [this]
  obtain rfl | rfl : packet = 0 ∨ packet = 1 := by omega
  all_goals cases key <;> rfl

theorem key_eq (n : Nat) : (n &&& 1 != 0) = (n % 2 == 1) := by
  rw [Nat.and_one_is_mod]
  rcases Nat.mod_two_eq_zero_or_one n with h | h <;> rw [h] <;> rfl

theorem tag_eq (sc : Ctx) (f : Frame) (codec : Nat) : KmpRtmpSpec.frameTag (UInt8.ofNat sc.sound) codec f = (frameTag sc f codec).map (·.2) := by
  unfold KmpRtmpSpec.frameTag frameTag
  rw [key_eq, avc_eq, ext_eq (by omega)]
  repeat' split
  all_goals rfl

theorem tag_size {sc : Ctx} {f : Frame} {codec hs type : Nat} {tag : Bytes} (h : frameTag sc f codec = some (hs, type, tag)) :
    tag.length = hs ∧ 1 ≤ hs ∧ hs ≤ 8 ∧ type < 256 ∧ type ≠ 1 := by
  unfold frameTag at h
  repeat' split at h
  all_goals simp at h
  all_goals
    obtain ⟨rfl, rfl, rfl⟩ := h
    simp [avcHeader, extHeader, out24, le32]

/-! ## Values -/

variable {e : Env}

theorem mask_always : (always &&& always != 0) = true := by decide

theorem connect_amf (c : Connect) : amfOut always (amfConnect e c 1) = (KmpRtmpSpec.connectMess e c).payload := by
  rw [amf_out (by decide)]
  simp only [amfConnect, List.map_cons, List.map_nil, Fld.val, pairs, used, List.filter_cons, List.filter_nil, mask_always, if_true, KmpRtmpSpec.connectMess, command,
    Leaf.val, num]

theorem named_amf (cmd : String) (tx : Nat) (name : Bytes) : amfOut always (amfNamed e cmd tx name) = amf [.str (txt cmd), num e tx, .null, .str name] := by
  rw [amf_out (by decide)]
  rfl

theorem create_amf (tx : Nat) : amfOut always (amfCreate e tx) = amf [.str (txt "createStream"), num e tx, .null] := by
  rw [amf_out (by decide)]
  rfl

theorem delete_amf (tx msid : Nat) : amfOut always (amfDelete e tx msid) = amf [.str (txt "deleteStream"), num e tx, .null, num e msid] := by
  rw [amf_out (by decide)]
  rfl

theorem publish_amf (tx : Nat) (name : Bytes) :
    amfOut always (amfPublish e tx name) = amf [.str (txt "publish"), num e tx, .null, .str name, .str (txt "live")] := by
  rw [amf_out (by decide)]
  rfl

theorem onfi_amf (x : Bytes × Bytes) :
    amfOut always (amfOnfi x) = amf [.str (txt "onFI"), KmpRtmpSpec.arr [(txt "sd", .str x.1), (txt "st", .str x.2)]] := by
  rw [amf_out (by decide)]
  simp only [amfOnfi, List.map_cons, List.map_nil, Fld.val, pairs, used, List.filter_cons, List.filter_nil, mask_always, if_true, Leaf.val]

theorem meta_amf {m : Meta} (h : m.video ≠ none ∨ m.audio ≠ none) : amfOut (metaType m) (amfMeta e m) =
    amf [.str (txt "@setDataFrame"), .str (txt "@onMetaData"), KmpRtmpSpec.arr (videoFields e m ++ audioFields e m)] := by
  have m11 : ((1 &&& 1 : Nat) != 0) = true := by decide
  have m12 : ((1 &&& 2 : Nat) != 0) = false := by decide
  have m13 : ((1 &&& 3 : Nat) != 0) = true := by decide
  have m21 : ((2 &&& 1 : Nat) != 0) = false := by decide
  have m22 : ((2 &&& 2 : Nat) != 0) = true := by decide
  have m23 : ((2 &&& 3 : Nat) != 0) = true := by decide
  obtain ⟨v, a⟩ := m
  cases v with
  | none =>
    cases a with
    | none => simp at h
    | some a =>
      rw [show metaType _ = 2 by simp [metaType], amf_out (by decide)]
      simp only [amfMeta, List.map_cons, List.map_nil, Fld.val, pairs, used, List.filter_cons, List.filter_nil, videoFields, audioFields, Leaf.val, num, m11, m12, m13,
        m21, m22, m23, if_true, Bool.false_eq_true, if_false, Option.getD_some, List.cons_append, List.nil_append, List.append_nil, decide_eq_true_eq]
  | some v =>
    cases a with
    | none =>
      rw [show metaType _ = 1 by simp [metaType], amf_out (by decide)]
      simp only [amfMeta, List.map_cons, List.map_nil, Fld.val, pairs, used, List.filter_cons, List.filter_nil, videoFields, audioFields, Leaf.val, num, m11, m12, m13,
        m21, m22, m23, if_true, Bool.false_eq_true, if_false, Option.getD_some, List.cons_append, List.nil_append, List.append_nil]
    | some a =>
      rw [show metaType _ = 3 by simp [metaType], amf_out (by decide)]
      simp only [amfMeta, List.map_cons, List.map_nil, Fld.val, pairs, used, List.filter_cons, List.filter_nil, videoFields, audioFields, Leaf.val, num, m11, m12, m13,
        m21, m22, m23, if_true, Bool.false_eq_true, if_false, Option.getD_some, List.cons_append, List.nil_append, List.append_nil, decide_eq_true_eq]

theorem amf_ne (s : Bytes) (vs : List Value) : amf (.str s :: vs) ≠ [] := by
  simp [amf, enc]

end Verif.KmpRtmp
