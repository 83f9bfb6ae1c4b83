import Verif.KmpRtmpSend

/-!
# KMP to RTMP: the messages that are made in memory
-/

namespace Verif.KmpRtmp

open Verif.RtmpSpec (Mess)
open Verif.AmfSpec (Value Fields enc)
open Verif.KmpRtmpSpec (amf)

/-! ## Values -/

def Leaf.val : Leaf → Value
  | .null => .null
  | .bool b => .bool (if b then 1 else 0)
  | .num b => .num b
  | .str s => .str s

/-- A number has eight bytes. -/
def Leaf.Ok : Leaf → Prop
  | .num b => b.length = 8
  | _ => True

def pairs (ty : Nat) (fs : List Key) : List (Bytes × Value) := (used ty fs).map fun k => (k.key, k.val.val)

def Fld.val (ty : Nat) : Fld → Value
  | .leaf l => l.val
  | .obj fs => KmpRtmpSpec.obj (pairs ty fs)
  | .mixed fs => KmpRtmpSpec.arr (pairs ty fs)

def Fld.Ok : Fld → Prop
  | .leaf l => l.Ok
  | .obj fs => ∀ k ∈ fs, k.val.Ok
  | .mixed fs => ∀ k ∈ fs, k.val.Ok

theorem out16_u16 (n : Nat) : out16 n = AmfSpec.u16 n := by
  simp [out16, AmfSpec.u16, Nat.shiftRight_eq_div_pow]

theorem leaf_out (l : Leaf) : l.out = enc l.val := by
  cases l <;> simp [Leaf.out, Leaf.val, enc, AmfSpec.body, AmfSpec.marker, out16_u16]

theorem leaf_size {l : Leaf} (h : l.Ok) : l.out.length = l.size := by
  cases l with
  | num b =>
    have : b.length = 8 := h
    simp [Leaf.out, Leaf.size, this]
  | str s => simp [Leaf.out, Leaf.size, out16]; omega
  | _ => rfl

theorem fields_out (ks : List Key) : (ks.map fun k => out16 k.key.length ++ k.key ++ k.val.out).flatten =
    AmfSpec.fields (Fields.ofList (ks.map fun k => (k.key, k.val.val))) := by
  induction ks with
  | nil => rfl
  | cons k ks ih =>
    simp only [List.map_cons, List.flatten_cons, Fields.ofList, AmfSpec.fields]
    rw [ih, leaf_out, out16_u16]
    simp [enc]

theorem fld_out (ty : Nat) (f : Fld) : f.out ty = enc (f.val ty) := by
  cases f with
  | leaf l => exact leaf_out l
  | obj fs =>
    simp only [Fld.out, Fld.val, KmpRtmpSpec.obj, enc, AmfSpec.body, AmfSpec.marker, fieldsOut, fields_out, pairs]
    simp [out16]
  | mixed fs =>
    simp only [Fld.out, Fld.val, KmpRtmpSpec.arr, enc, AmfSpec.body, AmfSpec.marker, fieldsOut, fields_out, pairs, List.length_map]
    simp [out16, out32, AmfSpec.u32, Nat.shiftRight_eq_div_pow]

theorem fields_size {ks : List Key} (h : ∀ k ∈ ks, k.val.Ok) : ((ks.map fun k => out16 k.key.length ++ k.key ++ k.val.out).flatten).length =
    (ks.map fun k => 2 + k.key.length + k.val.size).sum := by
  induction ks with
  | nil => rfl
  | cons k ks ih =>
    simp only [List.map_cons, List.flatten_cons, List.length_append, List.sum_cons, ih (fun x hx => h x (by simp [hx])), leaf_size (h k (by simp))]
    simp [out16]

theorem fld_size (ty : Nat) {f : Fld} (h : f.Ok) : (f.out ty).length = f.size ty := by
  cases f with
  | leaf l => exact leaf_size h
  | obj fs =>
    have := fields_size (ks := used ty fs) (fun k hk => h k (List.mem_filter.1 hk).1)
    simp only [Fld.out, Fld.size, fieldsOut, fieldsSize, List.length_cons, List.length_append, this]
    simp [out16]
    omega
  | mixed fs =>
    have := fields_size (ks := used ty fs) (fun k hk => h k (List.mem_filter.1 hk).1)
    simp only [Fld.out, Fld.size, fieldsOut, fieldsSize, List.length_cons, List.length_append, this]
    simp [out16, out32]
    omega

theorem amf_out {ty : Nat} (h : always &&& ty ≠ 0) (fs : List Fld) : amfOut ty fs = amf (fs.map (Fld.val ty)) := by
  unfold amfOut amf
  rw [if_neg h, List.map_map]
  congr 1
  refine List.map_congr_left fun f _ => ?_
  exact fld_out ty f

theorem amf_size {ty : Nat} {fs : List Fld} (h : ∀ f ∈ fs, f.Ok) : (amfOut ty fs).length = amfSize ty fs := by
  unfold amfOut amfSize
  split
  · rfl
  · induction fs with
    | nil => rfl
    | cons f fs ih =>
      simp only [List.map_cons, List.flatten_cons, List.length_append, List.sum_cons, ih (fun x hx => h x (by simp [hx])), fld_size ty (h f (by simp))]

/-! ## Memory -/

/-- The writer uses exactly `size` bytes, and they are `bs`. -/
def Writes (w : Bytes × Nat → Res (Bytes × Nat)) (size : Nat) (bs : Bytes) : Prop :=
  bs.length = size ∧ ∀ pre g fin : Bytes, g.length = size → w (pre ++ (g ++ fin), pre.length) = .ok (pre ++ (bs ++ fin), pre.length + size)

theorem writes_then {w1 w2 : Bytes × Nat → Res (Bytes × Nat)} {n1 n2 : Nat} {b1 b2 : Bytes} (h1 : Writes w1 n1 b1) (h2 : Writes w2 n2 b2) :
    Writes (fun x => w1 x >>= w2) (n1 + n2) (b1 ++ b2) := by
  refine ⟨by rw [List.length_append, h1.1, h2.1], ?_⟩
  intro pre g fin hg
  have e : pre ++ (g ++ fin) = pre ++ (g.take n1 ++ (g.drop n1 ++ fin)) := by
    rw [← List.append_assoc (g.take n1), List.take_append_drop]
  show (w1 _ >>= w2) = _
  rw [e, h1.2 pre (g.take n1) _ (by rw [List.length_take]; omega)]
  show w2 _ = _
  have := h2.2 (pre ++ b1) (g.drop n1) fin (by rw [List.length_drop]; omega)
  rw [List.length_append, h1.1] at this
  rw [← List.append_assoc pre b1, this]
  simp [Nat.add_assoc]

theorem writes_none : Writes (fun x => .ok x) 0 [] := by
  refine ⟨rfl, ?_⟩
  intro pre g fin hg
  obtain rfl := List.length_eq_zero_iff.1 hg
  rfl

theorem writes_fill {e : Env} {w : Bytes × Nat → Res (Bytes × Nat)} {size : Nat} {bs : Bytes} (he : (e.fresh size).length = size) (h : Writes w size bs) :
    fill e size w = .ok bs := by
  unfold fill
  have := h.2 [] (e.fresh size) [] he
  simp only [List.nil_append, List.append_nil, List.length_nil, Nat.zero_add] at this
  rw [this]
  show (if size = size then _ else _) = _
  rw [if_pos rfl]

/-- The bytes of a message that starts with this header. -/
def Coded (size fmt field : Nat) (m : Mess) (bs : Bytes) : Prop :=
  ∃ cs, Cut size m.payload cs ∧ bs = writeHeader ⟨fmt, m.csid, if 0xffffff ≤ field then 0xffffff else field, m.payload.length, m.type, m.msid⟩ ++
    (if 0xffffff ≤ field then out32 field else []) ++ chunked (again m.csid) cs

theorem header_len {fmt : Nat} (hf : fmt ≤ 3) (h : Hdr) : (writeHeader { h with fmt }).length = hdrSize fmt := by
  obtain rfl | rfl | rfl | rfl : fmt = 0 ∨ fmt = 1 ∨ fmt = 2 ∨ fmt = 3 := by omega
  all_goals simp [writeHeader, hdrSize, out24, le32]

/-- A message of AMF values. -/
theorem amfWrite_writes {fmt csid type msid ty size : Nat} {fs : List Fld} (hf : fmt ≤ 3) (hs : 0 < size) (hok : ∀ f ∈ fs, f.Ok) (hne : amfOut ty fs ≠ [])
    (hlen : (amfOut ty fs).length < 2 ^ 32) (ts : Nat) :
    ∃ bs, Writes (amfWrite ⟨fmt, csid, 0, 0, type, msid⟩ ty fs size) (amfGetSize ty fs fmt size) bs ∧
      Coded size fmt 0 ⟨csid, ts, type, msid, amfOut ty fs⟩ bs := by
  obtain ⟨B, hB⟩ : ∃ B, B = amfOut ty fs := ⟨_, rfl⟩
  obtain ⟨H, hH⟩ : ∃ H, H = writeHeader ⟨fmt, csid, 0, B.length, type, msid⟩ := ⟨_, rfl⟩
  have hHl : H.length = hdrSize fmt := by
    rw [hH]
    exact header_len hf ⟨fmt, csid, 0, B.length, type, msid⟩
  have hsz : amfGetSize ty fs fmt size = H.length + B.length + (chunkCount B.length size - 1) := by
    unfold amfGetSize
    rw [hHl, ← amf_size hok, ← hB]
  rw [← hB] at hne hlen
  obtain ⟨cs, h1, h2, h3⟩ := addChunks_eq csid hs hne
  refine ⟨H ++ chunked (again csid) cs, ⟨by rw [List.length_append, h2, hsz]; omega, ?_⟩, cs, by rw [← hB]; exact h1, ?_⟩
  · intro pre g fin hg
    unfold amfWrite
    simp only [← hB]
    rw [Nat.mod_eq_of_lt hlen, ← hH, ← hHl]
    rw [hsz] at hg
    have e1 : pre ++ (g ++ fin) = (pre ++ g.take H.length) ++ ((g.drop H.length).take B.length ++ (g.drop (H.length + B.length) ++ fin)) := by
      rw [← List.drop_drop]
      have a1 := List.take_append_drop H.length g
      have a2 := List.take_append_drop B.length (g.drop H.length)
      conv => lhs; rw [← a1, ← a2]
      simp only [List.append_assoc]
    rw [e1, store_mid (by simp; omega) (by rw [List.length_take, List.length_drop]; omega)]
    show (store _ _ _ >>= _) = _
    have e2 : (pre ++ g.take H.length) ++ (B ++ (g.drop (H.length + B.length) ++ fin)) =
        pre ++ (g.take H.length ++ (B ++ (g.drop (H.length + B.length) ++ fin))) := by simp only [List.append_assoc]
    rw [e2, store_mid rfl (by rw [List.length_take]; omega)]
    show addChunks _ _ _ _ _ = _
    have k := h3 (pre ++ H) (g.drop (H.length + B.length)) fin (by rw [List.length_drop]; omega)
    rw [List.length_append] at k
    rw [← List.append_assoc pre H, k, hsz]
    simp only [List.append_assoc, Nat.add_assoc]
  · rw [hH, hB]
    simp

/-- A message with the start of a body and extra data. -/
theorem seqWrite_writes {csid type msid size : Nat} {tag extra : Bytes} (hs : 0 < size) (hne : tag ≠ []) (hlen : tag.length + extra.length < 2 ^ 32) (ts : Nat) :
    ∃ bs, Writes (seqWrite ⟨0, csid, 0, 0, type, msid⟩ tag extra size) (seqGetSize tag.length extra.length size) bs ∧
      Coded size 0 0 ⟨csid, ts, type, msid, tag ++ extra⟩ bs := by
  obtain ⟨B, hB⟩ : ∃ B, B = tag ++ extra := ⟨_, rfl⟩
  have hBl : B.length = tag.length + extra.length := by rw [hB, List.length_append]
  obtain ⟨H, hH⟩ : ∃ H, H = writeHeader ⟨0, csid, 0, B.length, type, msid⟩ := ⟨_, rfl⟩
  have hHl : H.length = 12 := by
    rw [hH]
    exact header_len (by omega) ⟨0, csid, 0, B.length, type, msid⟩
  have hH0 : (writeHeader ⟨0, csid, 0, 0, type, msid⟩).length = 12 := header_len (by omega) ⟨0, csid, 0, 0, type, msid⟩
  have hsz : seqGetSize tag.length extra.length size = H.length + B.length + (chunkCount B.length size - 1) := by
    unfold seqGetSize
    rw [hHl, hBl]
  have hne' : B ≠ [] := by rw [hB]; simp [hne]
  obtain ⟨cs, h1, h2, h3⟩ := addChunks_eq csid hs hne'
  refine ⟨H ++ chunked (again csid) cs, ⟨by rw [List.length_append, h2, hsz]; omega, ?_⟩, cs, by rw [← hB]; exact h1, ?_⟩
  · intro pre g fin hg
    unfold seqWrite
    simp only [hH0, ← hBl, Nat.mod_eq_of_lt (show B.length < 2 ^ 32 by omega)]
    rw [← hH]
    rw [hsz] at hg
    have e1 : pre ++ (g ++ fin) = pre ++ (g.take H.length ++ ((g.drop H.length).take tag.length ++ (((g.drop H.length).drop tag.length).take extra.length ++
        (g.drop (H.length + B.length) ++ fin)))) := by
      have : g.drop (H.length + B.length) = ((g.drop H.length).drop tag.length).drop extra.length := by
        rw [List.drop_drop, List.drop_drop, hBl]
      rw [this]
      have a1 := List.take_append_drop H.length g
      have a2 := List.take_append_drop tag.length (g.drop H.length)
      have a3 := List.take_append_drop extra.length ((g.drop H.length).drop tag.length)
      conv => lhs; rw [← a1, ← a2, ← a3]
      simp only [List.append_assoc]
    rw [e1, store_mid rfl (by rw [List.length_take]; omega)]
    show (store _ _ _ >>= _) = _
    rw [← List.append_assoc pre H, store_mid (by rw [List.length_append]; omega) (by rw [List.length_take, List.length_drop]; omega)]
    show (store _ _ _ >>= _) = _
    rw [← List.append_assoc (pre ++ H) tag, store_mid (by rw [List.length_append, List.length_append]; omega)
      (by rw [List.length_take, List.length_drop, List.length_drop]; omega)]
    show addChunks _ _ _ _ _ = _
    have k := h3 (pre ++ H) (g.drop (H.length + B.length)) fin (by rw [List.length_drop]; omega)
    rw [List.length_append, hHl, hB] at k
    rw [hB, hsz]
    simp only [List.append_assoc, Nat.add_assoc, hHl, hB] at k ⊢
    rw [k]
  · rw [hH, hB]
    simp

end Verif.KmpRtmp
