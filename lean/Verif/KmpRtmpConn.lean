import Verif.KmpRtmpStep

/-!
# KMP to RTMP: what is written on a connection
-/

namespace Verif.KmpRtmp

open Verif.RtmpSpec (Mess)
open Verif.AmfSpec (Value Fields enc)
open Verif.KmpRtmpSpec (St Sp act acts command num amf configs videoFields audioFields)

/-- The bytes of messages with the types of their headers. -/
inductive CodedAll (size : Nat) : List (Mess × Nat) → List Nat → Bytes → Prop where
  | nil : CodedAll size [] [] []
  | cons {m : Mess} {field fmt : Nat} {bs rest : Bytes} {ms : List (Mess × Nat)} {fmts : List Nat} : Coded size fmt field m bs → CodedAll size ms fmts rest →
      CodedAll size ((m, field) :: ms) (fmt :: fmts) (bs ++ rest)

/-- The parameters have the sizes that they have in C. -/
structure EnvOk (e : Env) : Prop where
  dbl : ∀ n, (e.dbl n).length = 8
  fresh : ∀ n, (e.fresh n).length = n

/-- What happens makes sense: metadata of one track or of two, numbers with eight bytes, frames with data and their size. -/
def EvOk : Ev → Prop
  | .start _ m => (m.video ≠ none ∨ m.audio ≠ none) ∧ (∀ v, m.video = some v → v.rates.bitrate.length = 8 ∧ v.rates.frames.length = 8) ∧
      (∀ a, m.audio = some a → a.rates.bitrate.length = 8)
  | .frame _ _ f => f.data ≠ [] ∧ f.size = f.data.flatten.length
  | _ => True

/-- The number of the chunk stream is in a byte. -/
def low (m : Mess) : Mess := { m with csid := m.csid % 256 }

def lows (ms : List (Mess × Nat)) : List (Mess × Nat) := ms.map fun x => (low x.1, x.2)

/-- What a server knows of a stream. -/
def toSt (s : Strm) : St := ⟨s.ctx.msid, s.name, UInt8.ofNat s.ctx.sound, s.wroteMeta, if s.ctx.wrote then some s.ctx.lastTs else none, s.onfi⟩

structure Base (c : Conn) (p : Sp) : Prop where
  count : p.count = c.lastMsid
  tx : p.tx = c.tx
  period : p.period = c.period
  sts : p.sts = c.strms.map toSt
  each : ∀ s ∈ c.strms, s.ctx.chunk = c.size ∧ s.ctx.csid = (s.ctx.msid + 3) % 256 ∧ 1 ≤ s.ctx.msid ∧ s.ctx.msid ≤ c.lastMsid ∧ s.ctx.lastTs < 2 ^ 32

/-- The types of the headers of the messages. -/
def fmtsOf (p : Sp) (n : Nat) : Ev → List Nat
  | .publish _ => [1, 1, 1, 0]
  | .sound .. => []
  | .start .. => List.replicate n 0
  | .frame id _ _ => (if (p.find id).any (·.time.isSome) then 1 else 0) :: List.replicate (n - 1) 1
  | .unpublish _ => [1, 1]

theorem find_eq {c : Conn} {p : Sp} (h : Base c p) (n : Nat) : p.find n = (c.find n).map toSt := by
  unfold Sp.find Conn.find
  rw [h.sts, List.find?_map]
  rfl

theorem find_mem {c : Conn} {n : Nat} {s : Strm} (h : c.find n = some s) : s ∈ c.strms ∧ s.ctx.msid = n := by
  unfold Conn.find at h
  exact ⟨List.mem_of_find?_eq_some h, by simpa using List.find?_some h⟩

theorem set_base {c : Conn} {p : Sp} (h : Base c p) {s : Strm} (h1 : s.ctx.chunk = c.size) (h2 : s.ctx.csid = (s.ctx.msid + 3) % 256) (h3 : 1 ≤ s.ctx.msid)
    (h4 : s.ctx.msid ≤ c.lastMsid) (h5 : s.ctx.lastTs < 2 ^ 32) : Base (c.set s) (p.set (toSt s)) := by
  refine ⟨h.count, h.tx, h.period, ?_, ?_⟩
  · show p.sts.map _ = (c.strms.map _).map toSt
    rw [h.sts, List.map_map, List.map_map]
    refine List.map_congr_left fun t _ => ?_
    show (if t.ctx.msid = s.ctx.msid then toSt s else toSt t) = toSt (if t.ctx.msid = s.ctx.msid then s else t)
    split <;> rfl
  · intro t ht
    obtain ⟨u, hu, rfl⟩ := List.mem_map.1 ht
    show (if u.ctx.msid = s.ctx.msid then s else u).ctx.chunk = c.size ∧ _
    split
    · exact ⟨h1, h2, h3, h4, h5⟩
    · exact h.each u hu

theorem out_base {c : Conn} {p : Sp} (h : Base c p) (bs : Bytes) : Base { c with out := bs } p := ⟨h.count, h.tx, h.period, h.sts, h.each⟩

/-- It cannot happen. -/
theorem step_none {e : Env} {c : Conn} {p : Sp} (h : Base c p) {v : Ev} (ha : act e p v = none) : step e c v = .err := by
  cases v with
  | publish name => simp [act] at ha
  | sound n codec rate bits channels =>
    simp only [act, find_eq h] at ha
    simp only [step]
    cases hf : c.find n with
    | none => rfl
    | some s => rw [hf] at ha; simp at ha
  | start n m =>
    simp only [act, find_eq h] at ha
    simp only [step]
    cases hf : c.find n with
    | none => rfl
    | some s =>
      rw [hf] at ha
      simp only [Option.map_some] at ha ⊢
      by_cases hw : s.wroteMeta = true
      · rw [if_pos hw]
      · rw [if_neg (by exact hw)] at ha
        simp at ha
  | frame n codec f =>
    simp only [act, find_eq h] at ha
    simp only [step]
    cases hf : c.find n with
    | none => rfl
    | some s =>
      rw [hf] at ha
      simp only [Option.map_some] at ha ⊢
      by_cases hw : s.wroteMeta = true
      · rw [if_pos hw]
        have ht := tag_eq s.ctx f codec
        cases hg : frameTag s.ctx f codec with
        | none =>
          unfold frameWrite
          simp only [hg]
          rfl
        | some x =>
          rw [hg] at ht
          have : (toSt s).sound = UInt8.ofNat s.ctx.sound := rfl
          rw [this, ht] at ha
          simp only [Option.map_some] at ha
          rw [if_pos (by exact hw)] at ha
          simp at ha
      · rw [if_neg hw]
  | unpublish n =>
    simp only [act, find_eq h] at ha
    simp only [step]
    cases hf : c.find n with
    | none => rfl
    | some s => rw [hf] at ha; simp at ha

/-- A frame. -/
theorem frame_coded {sc : Ctx} {f : Frame} {codec hs type : Nat} {tag : Bytes} (ht : frameTag sc f codec = some (hs, type, tag)) (hd : f.data ≠ [])
    (hz : f.size = f.data.flatten.length) (hc : 8 ≤ sc.chunk) (hc2 : sc.chunk < 2 ^ 63) (hlen : (tag ++ f.data.flatten).length < 2 ^ 32) (ts : Nat) :
    ∃ bs, frameWrite sc f codec = .ok ({ sc with wrote := true, lastTs := u32 f.dts }, bs) ∧
      Coded sc.chunk (if sc.wrote then 1 else 0) (if sc.wrote then (u32 f.dts + 2 ^ 32 - sc.lastTs) % 2 ^ 32 else u32 f.dts)
        ⟨sc.csid, ts, type, sc.msid, tag ++ f.data.flatten⟩ bs := by
  obtain ⟨hl, h1, h8, -, -⟩ := tag_size ht
  obtain ⟨d, next, hdn⟩ : ∃ d next, f.data = d :: next := by
    cases h : f.data with
    | nil => exact absurd h hd
    | cons d next => exact ⟨d, next, rfl⟩
  obtain ⟨field, hfield⟩ : ∃ field, field = if sc.wrote then (u32 f.dts + 2 ^ 32 - sc.lastTs) % 2 ^ 32 else u32 f.dts := ⟨_, rfl⟩
  obtain ⟨H, hH⟩ : ∃ H, H = writeHeader ⟨if sc.wrote then 1 else 0, sc.csid, if 0xffffff ≤ field then 0xffffff else field, (tag ++ f.data.flatten).length, type, sc.msid⟩ ++
      (if 0xffffff ≤ field then out32 field else []) := ⟨_, rfl⟩
  have hHl : H.length ≤ 16 := by
    rw [hH, List.length_append]
    have : (writeHeader ⟨if sc.wrote then 1 else 0, sc.csid, if 0xffffff ≤ field then 0xffffff else field, (tag ++ f.data.flatten).length, type, sc.msid⟩).length ≤ 12 := by
      rw [header_len (fmt := if sc.wrote then 1 else 0) (by split <;> omega)
        ⟨0, sc.csid, if 0xffffff ≤ field then 0xffffff else field, (tag ++ f.data.flatten).length, type, sc.msid⟩]
      unfold hdrSize
      (repeat' split) <;> omega
    have h4 : (if 0xffffff ≤ field then out32 field else []).length ≤ 4 := by
      split <;> simp [out32]
    omega
  obtain ⟨q, qs, k1, k2, k3, k4⟩ := frameLoop_eq sc.csid (show 0 < sc.chunk by omega) (f.data.flatten.length + 2 * f.data.length + 1) (sc.chunk - hs) d next (by
    rw [hdn]
    simp only [List.flatten_cons, List.length_append, List.length_cons]
    split <;> omega)
  have k2 : (q :: qs).flatten = f.data.flatten := by rw [k2, hdn]; simp
  refine ⟨H ++ tag ++ chunked (again sc.csid) (q :: qs), ?_, (tag ++ q) :: qs, frame_cut k2 (by omega) (fun h => ?_), ?_⟩
  · unfold frameWrite
    simp only [ht]
    rw [← hfield]
    have e1 : (hs + f.size) % 2 ^ 32 = (tag ++ f.data.flatten).length := by
      rw [List.length_append, hl, ← hz] at hlen ⊢
      exact Nat.mod_eq_of_lt hlen
    rw [e1, ← hH, if_neg (by rw [List.length_append]; omega), hdn]
    simp only []
    have e2 : (sc.chunk + 2 ^ 64 - hs) % 2 ^ 64 = sc.chunk - hs := by omega
    rw [e2, ← hdn, k1]
    rfl
  · obtain ⟨a, b⟩ := k4 h
    exact ⟨by omega, b⟩
  · rw [← hfield, hH]
    simp [chunked]

/-! ## Writers -/

/-- The writer uses exactly `n` bytes, and they are these messages. -/
def CW (size : Nat) (w : Bytes × Nat → Res (Bytes × Nat)) (n : Nat) (ms : List (Mess × Nat)) (fmts : List Nat) : Prop :=
  ∃ bs, Writes w n bs ∧ CodedAll size ms fmts bs

theorem coded_append {size : Nat} {ms1 ms2 : List (Mess × Nat)} {f1 f2 : List Nat} {b1 b2 : Bytes} (h1 : CodedAll size ms1 f1 b1) (h2 : CodedAll size ms2 f2 b2) :
    CodedAll size (ms1 ++ ms2) (f1 ++ f2) (b1 ++ b2) := by
  induction h1 with
  | nil => exact h2
  | cons a _ ih =>
    rw [List.append_assoc]
    exact .cons a ih

theorem cw_then {size : Nat} {w1 w2 : Bytes × Nat → Res (Bytes × Nat)} {n1 n2 : Nat} {ms1 ms2 : List (Mess × Nat)} {f1 f2 : List Nat} (h1 : CW size w1 n1 ms1 f1)
    (h2 : CW size w2 n2 ms2 f2) : CW size (fun x => w1 x >>= w2) (n1 + n2) (ms1 ++ ms2) (f1 ++ f2) := by
  obtain ⟨b1, a1, c1⟩ := h1
  obtain ⟨b2, a2, c2⟩ := h2
  exact ⟨b1 ++ b2, writes_then a1 a2, coded_append c1 c2⟩

theorem cw_none {size : Nat} : CW size (fun x => .ok x) 0 [] [] := ⟨[], writes_none, .nil⟩

theorem cw_amf {fmt csid type msid ty size : Nat} {fs : List Fld} {b : Bytes} (hb : amfOut ty fs = b) (hf : fmt ≤ 3) (hs : 0 < size) (hok : ∀ f ∈ fs, f.Ok) (hne : b ≠ [])
    (hlen : b.length < 2 ^ 32) (ts : Nat) : CW size (amfWrite ⟨fmt, csid, 0, 0, type, msid⟩ ty fs size) (amfGetSize ty fs fmt size) [(⟨csid, ts, type, msid, b⟩, 0)] [fmt] := by
  subst hb
  obtain ⟨bs, h1, h2⟩ := amfWrite_writes (csid := csid) (type := type) (msid := msid) hf hs hok hne hlen ts
  exact ⟨bs, h1, by simpa using CodedAll.cons h2 .nil⟩

theorem cw_seq {csid type msid size : Nat} {tag extra : Bytes} (hs : 0 < size) (hne : tag ≠ []) (hlen : (tag ++ extra).length < 2 ^ 32) (ts : Nat) :
    CW size (seqWrite ⟨0, csid, 0, 0, type, msid⟩ tag extra size) (seqGetSize tag.length extra.length size) [(⟨csid, ts, type, msid, tag ++ extra⟩, 0)] [0] := by
  obtain ⟨bs, h1, h2⟩ := seqWrite_writes (csid := csid) (type := type) (msid := msid) hs hne (by rwa [List.length_append] at hlen) ts
  exact ⟨bs, h1, by simpa using CodedAll.cons h2 .nil⟩

theorem cw_fill {e : Env} (he : EnvOk e) {size : Nat} {w : Bytes × Nat → Res (Bytes × Nat)} {n : Nat} {ms : List (Mess × Nat)} {fmts : List Nat} (h : CW size w n ms fmts) :
    ∃ bs, fill e n w = .ok bs ∧ CodedAll size ms fmts bs := by
  obtain ⟨bs, h1, h2⟩ := h
  exact ⟨bs, writes_fill (he.fresh n) h1, h2⟩

theorem named_ok {e : Env} (he : EnvOk e) (cmd : String) (tx : Nat) (name : Bytes) : ∀ f ∈ amfNamed e cmd tx name, f.Ok := by
  simp [amfNamed, Fld.Ok, Leaf.Ok, he.dbl]

theorem stream_cw {e : Env} (he : EnvOk e) {sc : Ctx} (hs : 0 < sc.chunk) {name : Bytes} {tx : Nat} {M1 M2 M3 M4 : Mess}
    (h1 : M1 = command [.str (txt "releaseStream"), num e ((tx + 1) % 2 ^ 32), .null, .str name])
    (h2 : M2 = command [.str (txt "FCPublish"), num e ((tx + 2) % 2 ^ 32), .null, .str name])
    (h3 : M3 = command [.str (txt "createStream"), num e ((tx + 3) % 2 ^ 32), .null])
    (h4 : M4 = ⟨sc.csid, 0, 20, sc.msid, amf [.str (txt "publish"), num e ((tx + 4) % 2 ^ 32), .null, .str name, .str (txt "live")]⟩)
    (l1 : M1.payload.length < 2 ^ 32) (l2 : M2.payload.length < 2 ^ 32) (l3 : M3.payload.length < 2 ^ 32) (l4 : M4.payload.length < 2 ^ 32) :
    CW sc.chunk (streamWrite e sc name tx) (streamSize e sc name) [(M1, 0), (M2, 0), (M3, 0), (M4, 0)] [1, 1, 1, 0] := by
  subst h1 h2 h3 h4
  have w1 := cw_amf (fmt := 1) (csid := 3) (type := 20) (msid := 0) (named_amf "releaseStream" ((tx + 1) % 2 ^ 32) name) (by omega) hs (named_ok he _ _ _) (amf_ne _ _) l1 0
  have w2 := cw_amf (fmt := 1) (csid := 3) (type := 20) (msid := 0) (named_amf "FCPublish" ((tx + 2) % 2 ^ 32) name) (by omega) hs (named_ok he _ _ _) (amf_ne _ _) l2 0
  have w3 := cw_amf (fmt := 1) (csid := 3) (type := 20) (msid := 0) (create_amf ((tx + 3) % 2 ^ 32)) (by omega) hs
    (by simp [amfCreate, Fld.Ok, Leaf.Ok, he.dbl]) (amf_ne _ _) l3 0
  have w4 := cw_amf (fmt := 0) (csid := sc.csid) (type := 20) (msid := sc.msid) (publish_amf ((tx + 4) % 2 ^ 32) name) (by omega) hs
    (by simp [amfPublish, Fld.Ok, Leaf.Ok, he.dbl]) (amf_ne _ _) l4 0
  have := cw_then w1 (cw_then w2 (cw_then w3 w4))
  simp only [← Nat.add_assoc] at this
  exact this

theorem unstream_cw {e : Env} (he : EnvOk e) {sc : Ctx} (hs : 0 < sc.chunk) {name : Bytes} {tx : Nat} {M1 M2 : Mess}
    (h1 : M1 = command [.str (txt "FCUnpublish"), num e ((tx + 1) % 2 ^ 32), .null, .str name])
    (h2 : M2 = command [.str (txt "deleteStream"), num e ((tx + 2) % 2 ^ 32), .null, num e sc.msid])
    (l1 : M1.payload.length < 2 ^ 32) (l2 : M2.payload.length < 2 ^ 32) :
    CW sc.chunk (unstreamWrite e sc name tx) (unstreamSize e sc name) [(M1, 0), (M2, 0)] [1, 1] := by
  subst h1 h2
  have w1 := cw_amf (fmt := 1) (csid := 3) (type := 20) (msid := 0) (named_amf "FCUnpublish" ((tx + 1) % 2 ^ 32) name) (by omega) hs (named_ok he _ _ _) (amf_ne _ _) l1 0
  have w2 := cw_amf (fmt := 1) (csid := 3) (type := 20) (msid := 0) (delete_amf ((tx + 2) % 2 ^ 32) sc.msid) (by omega) hs
    (by simp [amfDelete, Fld.Ok, Leaf.Ok, he.dbl]) (amf_ne _ _) l2 0
  exact cw_then w1 w2

theorem meta_ok {e : Env} (he : EnvOk e) {m : Meta} (h1 : ∀ v, m.video = some v → v.rates.bitrate.length = 8 ∧ v.rates.frames.length = 8)
    (h2 : ∀ a, m.audio = some a → a.rates.bitrate.length = 8) : ∀ f ∈ amfMeta e m, f.Ok := by
  obtain ⟨v, a⟩ := m
  cases v with
  | none =>
    cases a with
    | none => simp [amfMeta, Fld.Ok, Leaf.Ok, he.dbl]
    | some a => simp [amfMeta, Fld.Ok, Leaf.Ok, he.dbl, h2 a rfl]
  | some v =>
    have := h1 v rfl
    cases a with
    | none => simp [amfMeta, Fld.Ok, Leaf.Ok, he.dbl, this]
    | some a => simp [amfMeta, Fld.Ok, Leaf.Ok, he.dbl, this, h2 a rfl]

theorem avc0 : KmpRtmpSpec.avcTag 0 true 0 = avcHeader 0 true 0 := (avc_eq true 0).symm

theorem hevc0 : KmpRtmpSpec.hevcTag 0 true 0 = extHeader 0 true hvc1 0 := (ext_eq (by omega) true 0).symm

/-- The messages of metadata and of decoder configurations, as they are written. -/
theorem meta_cw {e : Env} (he : EnvOk e) {sc : Ctx} (hs : 0 < sc.chunk) {m : Meta} {s : St} (hv : m.video ≠ none ∨ m.audio ≠ none)
    (hr1 : ∀ v, m.video = some v → v.rates.bitrate.length = 8 ∧ v.rates.frames.length = 8) (hr2 : ∀ a, m.audio = some a → a.rates.bitrate.length = 8)
    (hid : s.id = sc.msid) (hcs : sc.csid = (sc.msid + 3) % 256) (hsd : s.sound = UInt8.ofNat sc.sound)
    (hl0 : (amf [.str (txt "@setDataFrame"), .str (txt "@onMetaData"), KmpRtmpSpec.arr (videoFields e m ++ audioFields e m)]).length < 2 ^ 32)
    (hl : ∀ x ∈ configs s m, x.payload.length < 2 ^ 32) :
    CW sc.chunk (metaWrite e sc m) (metaSize e sc m)
      ((⟨sc.csid, 0, 18, sc.msid, amf [.str (txt "@setDataFrame"), .str (txt "@onMetaData"), KmpRtmpSpec.arr (videoFields e m ++ audioFields e m)]⟩, 0) ::
        lows ((configs s m).map (·, 0))) (List.replicate (1 + (configs s m).length) 0) := by
  have w1 := cw_amf (fmt := 0) (csid := sc.csid) (type := 18) (msid := sc.msid) (meta_amf hv) (by omega) hs (meta_ok he hr1 hr2) (amf_ne _ _) hl0 0
  have hcsid : s.csid % 256 = sc.csid := by
    unfold St.csid
    rw [hid, hcs]
  have w2 : ∃ l2 : List Mess, CW sc.chunk (seqOut ⟨0, sc.csid, 0, 0, 9, sc.msid⟩ sc.chunk (videoSeq m)) (seqSize sc.chunk (videoSeq m)) (lows (l2.map (·, 0)))
      (List.replicate l2.length 0) ∧ l2 = (match m.video with
    | some v => if v.codec = 7 then [⟨s.csid, 0, 9, s.id, KmpRtmpSpec.avcTag 0 true 0 ++ v.extra⟩]
      else if v.codec = 8 then [⟨s.csid, 0, 9, s.id, KmpRtmpSpec.hevcTag 0 true 0 ++ v.extra⟩] else []
    | none => []) := by
    refine ⟨_, ?_, rfl⟩
    unfold videoSeq configs at *
    cases hvid : m.video with
    | none => exact cw_none
    | some v =>
      rw [hvid] at hl
      simp only [] at hl ⊢
      by_cases h7 : v.codec = 7
      · rw [if_pos h7] at hl ⊢
        have := cw_seq (csid := sc.csid) (type := 9) (msid := sc.msid) (tag := avcHeader 0 true 0) (extra := v.extra) hs (by simp [avcHeader])
          (by have := hl ⟨s.csid, 0, 9, s.id, KmpRtmpSpec.avcTag 0 true 0 ++ v.extra⟩ (by simp); rw [avc0] at this; exact this) 0
        rw [if_pos h7]
        simp only [lows, low, List.map_cons, List.map_nil, hcsid, hid, avc0]
        exact this
      · rw [if_neg h7] at hl ⊢
        by_cases h8 : v.codec = 8
        · rw [if_pos h8] at hl ⊢
          have := cw_seq (csid := sc.csid) (type := 9) (msid := sc.msid) (tag := extHeader 0 true hvc1 0) (extra := v.extra) hs (by simp [extHeader])
            (by have := hl ⟨s.csid, 0, 9, s.id, KmpRtmpSpec.hevcTag 0 true 0 ++ v.extra⟩ (by simp); rw [hevc0] at this; exact this) 0
          rw [if_neg h7, if_pos h8]
          simp only [lows, low, List.map_cons, List.map_nil, hcsid, hid, hevc0]
          exact this
        · rw [if_neg h8]
          rw [if_neg h7, if_neg h8]
          exact cw_none
  have w3 : ∃ l3 : List Mess, CW sc.chunk (seqOut ⟨0, sc.csid, 0, 0, 8, sc.msid⟩ sc.chunk (audioSeq sc m)) (seqSize sc.chunk (audioSeq sc m)) (lows (l3.map (·, 0)))
      (List.replicate l3.length 0) ∧ l3 = (match m.audio with
    | some a => if a.codec = 1010 then [⟨s.csid, 0, 8, s.id, [s.sound, 0] ++ a.extra⟩] else []
    | none => []) := by
    refine ⟨_, ?_, rfl⟩
    unfold audioSeq configs at *
    cases haud : m.audio with
    | none => exact cw_none
    | some a =>
      rw [haud] at hl
      simp only [] at hl ⊢
      by_cases h7 : a.codec = 1010
      · rw [if_pos h7] at hl ⊢
        have := cw_seq (csid := sc.csid) (type := 8) (msid := sc.msid) (tag := [UInt8.ofNat sc.sound, 0]) (extra := a.extra) hs (by simp)
          (by have := hl ⟨s.csid, 0, 8, s.id, [s.sound, 0] ++ a.extra⟩ (by simp); rw [hsd] at this; exact this) 0
        rw [if_pos h7]
        simp only [lows, low, List.map_cons, List.map_nil, hcsid, hid, hsd]
        exact this
      · rw [if_neg h7]
        rw [if_neg h7]
        exact cw_none
  obtain ⟨l2, w2, e2⟩ := w2
  obtain ⟨l3, w3, e3⟩ := w3
  have hcon : configs s m = l2 ++ l3 := by rw [e2, e3]; rfl
  have := cw_then w1 (cw_then w2 w3)
  rw [hcon]
  simp only [← Nat.add_assoc] at this
  have er : [0] ++ (List.replicate l2.length 0 ++ List.replicate l3.length 0) = List.replicate (1 + (l2 ++ l3).length) 0 := by
    rw [List.length_append, List.replicate_append_replicate, Nat.add_comm 1, List.replicate_succ]
    rfl
  rw [er] at this
  have el : lows ((l2 ++ l3).map (·, 0)) = lows (l2.map (·, 0)) ++ lows (l3.map (·, 0)) := by simp [lows]
  rw [el]
  exact this

theorem diff_eq (x : Int) {t : Nat} (ht : t < 2 ^ 32) : (u32 x + 2 ^ 32 - t) % 2 ^ 32 = ((x - t) % 2 ^ 32).toNat := by
  have h1 : (u32 x : Int) = x % 2 ^ 32 := by unfold u32; omega
  have hu : u32 x < 2 ^ 32 := by unfold u32; omega
  generalize u32 x = y at *
  have h2 : ((x - t) % 2 ^ 32) = ((y : Int) - t) % 2 ^ 32 := by omega
  rw [h2]
  omega

/-- What happens writes the messages. -/
theorem step_coded {e : Env} (he : EnvOk e) {c : Conn} {p p' : Sp} (h : Base c p) (hs : 8 ≤ c.size) (hs2 : c.size < 2 ^ 63) {v : Ev} (hv : EvOk v)
    (hm : c.lastMsid + 1 < 2 ^ 32) {ms : List (Mess × Nat)} (ha : act e p v = some (p', ms)) (hl : ∀ x ∈ ms, x.1.payload.length < 2 ^ 32) :
    ∃ c' bs, step e c v = .ok c' ∧ c'.out = c.out ++ bs ∧ c'.size = c.size ∧ Base c' p' ∧ CodedAll c.size (lows ms) (fmtsOf p ms.length v) bs := by
  cases v with
  | publish name =>
    simp only [act, Option.some.injEq, Prod.mk.injEq] at ha
    obtain ⟨rfl, rfl⟩ := ha
    have e1 : (c.lastMsid + 1) % 2 ^ 32 = c.lastMsid + 1 := Nat.mod_eq_of_lt hm
    have hcs : (3 + (c.lastMsid + 1)) % 256 = (c.lastMsid + 4) % 256 := by omega
    obtain ⟨sc, hsc⟩ : ∃ sc : Ctx, sc = { chunk := c.size, msid := c.lastMsid + 1, csid := (c.lastMsid + 4) % 256 } := ⟨_, rfl⟩
    have hchunk : sc.chunk = c.size := by rw [hsc]
    obtain ⟨bs, h1, h2⟩ := cw_fill he (stream_cw he (sc := sc) (name := name) (tx := c.tx) (by rw [hchunk]; omega) rfl rfl rfl rfl
      (by have := hl _ (List.mem_cons_self ..); rw [h.tx] at this; exact this)
      (by have := hl _ (List.mem_cons_of_mem _ (List.mem_cons_self ..)); rw [h.tx] at this; exact this)
      (by have := hl _ (List.mem_cons_of_mem _ (List.mem_cons_of_mem _ (List.mem_cons_self ..))); rw [h.tx] at this; exact this)
      (by have := hl _ (List.mem_cons_of_mem _ (List.mem_cons_of_mem _ (List.mem_cons_of_mem _ (List.mem_cons_self ..)))); rw [h.tx] at this; exact this))
    refine ⟨{ c with lastMsid := c.lastMsid + 1, tx := (c.tx + 4) % 2 ^ 32, strms := c.strms ++ [{ ctx := sc, name }], out := c.out ++ bs }, bs, ?_, rfl, rfl, ?_, ?_⟩
    · simp only [step, e1, hcs, ← hsc, h1]
      rfl
    · refine ⟨by rw [h.count], by rw [h.tx], h.period, ?_, ?_⟩
      · simp only [List.map_append, List.map_cons, List.map_nil, h.sts, h.count]
        rw [hsc]
        rfl
      · intro s hmem
        simp only [List.mem_append, List.mem_singleton] at hmem
        rcases hmem with hmem | rfl
        · have := h.each s hmem
          exact ⟨this.1, this.2.1, this.2.2.1, Nat.le_succ_of_le this.2.2.2.1, this.2.2.2.2⟩
        · simp [hsc]
    · rw [hchunk] at h2
      rw [h.tx, h.count]
      rw [hsc] at h2
      exact h2
  | sound n codec rate bits channels =>
    simp only [act, find_eq h] at ha
    cases hf : c.find n with
    | none => rw [hf] at ha; simp at ha
    | some s =>
      rw [hf] at ha
      simp only [Option.map_some, Option.some.injEq, Prod.mk.injEq] at ha
      obtain ⟨rfl, rfl⟩ := ha
      obtain ⟨g1, g2, g3, g4, g5⟩ := h.each s (find_mem hf).1
      refine ⟨c.set { s with ctx := { s.ctx with sound := soundInfo codec rate bits channels } }, [], by simp only [step, hf], by simp [Conn.set], rfl, ?_, .nil⟩
      have := set_base h (s := { s with ctx := { s.ctx with sound := soundInfo codec rate bits channels } }) g1 g2 g3 g4 g5
      have e1 : toSt { s with ctx := { s.ctx with sound := soundInfo codec rate bits channels } } =
          { toSt s with sound := KmpRtmpSpec.soundByte (codec - 1000) rate bits channels } := by
        simp [toSt, sound_eq]
      rw [e1] at this
      exact this
  | start n m =>
    simp only [act, find_eq h] at ha
    cases hf : c.find n with
    | none => rw [hf] at ha; simp at ha
    | some s =>
      rw [hf] at ha
      simp only [Option.map_some] at ha
      by_cases hw : s.wroteMeta = true
      · rw [if_pos (by exact hw)] at ha
        simp at ha
      · rw [if_neg (by exact hw)] at ha
        simp only [Option.some.injEq, Prod.mk.injEq] at ha
        obtain ⟨rfl, rfl⟩ := ha
        obtain ⟨g1, g2, g3, g4, g5⟩ := h.each s (find_mem hf).1
        obtain ⟨v1, v2, v3⟩ := hv
        obtain ⟨bs, h1, h2⟩ := cw_fill he (meta_cw he (sc := s.ctx) (s := toSt s) (by omega) v1 v2 v3 rfl g2 rfl (hl _ (List.mem_cons_self ..))
          (fun x hx => hl (x, 0) (List.mem_cons_of_mem _ (List.mem_map.2 ⟨x, hx, rfl⟩))))
        refine ⟨{ c.set { s with wroteMeta := true } with out := c.out ++ bs }, bs, ?_, rfl, rfl, ?_, ?_⟩
        · simp only [step, hf]
          rw [if_neg hw, h1]
          rfl
        · exact out_base (set_base h (s := { s with wroteMeta := true }) g1 g2 g3 g4 g5) _
        · rw [g1] at h2
          simp only [fmtsOf, List.length_cons, List.length_map]
          rw [Nat.add_comm]
          have : (toSt s).csid % 256 = s.ctx.csid := by rw [g2]; rfl
          simp only [lows, low, List.map_cons, this] at h2 ⊢
          exact h2
  | frame n codec f =>
    simp only [act, find_eq h] at ha
    cases hf : c.find n with
    | none => rw [hf] at ha; simp at ha
    | some s =>
      rw [hf] at ha
      simp only [Option.map_some] at ha
      obtain ⟨g1, g2, g3, g4, g5⟩ := h.each s (find_mem hf).1
      have ht := tag_eq s.ctx f codec
      have hsd : (toSt s).sound = UInt8.ofNat s.ctx.sound := rfl
      rw [hsd, ht] at ha
      cases hg : frameTag s.ctx f codec with
      | none => rw [hg] at ha; simp at ha
      | some x =>
        obtain ⟨hz, type, tag⟩ := x
        rw [hg] at ha
        simp only [Option.map_some] at ha
        by_cases hw : s.wroteMeta = true
        · rw [if_pos (by exact hw)] at ha
          simp only [Option.some.injEq, Prod.mk.injEq] at ha
          obtain ⟨rfl, rfl⟩ := ha
          have hcsid : (toSt s).csid % 256 = s.ctx.csid := by rw [g2]; rfl
          obtain ⟨b1, k1, k2⟩ := frame_coded hg hv.1 hv.2 (by omega) (by omega) (hl _ (List.mem_cons_self ..)) (u32 f.dts)
          have hu : u32 f.dts < 2 ^ 32 := by unfold u32; omega
          have hfield : (if s.ctx.wrote then (u32 f.dts + 2 ^ 32 - s.ctx.lastTs) % 2 ^ 32 else u32 f.dts) =
              (toSt s).field f.dts := by
            unfold St.field toSt
            by_cases hwr : s.ctx.wrote = true
            · simp only [hwr, if_true]
              exact diff_eq _ g5
            · simp only [hwr]
              rfl
          rw [hfield] at k2
          have hfmt : (if s.ctx.wrote = true then 1 else 0) = (if (p.find n).any (·.time.isSome) then 1 else 0) := by
            rw [find_eq h, hf]
            by_cases hwr : s.ctx.wrote = true <;> simp [toSt, hwr]
          rw [hfmt, g1] at k2
          by_cases htold : p.period ≠ 0 ∧ (f.created < s.onfi ∨ s.onfi + p.period ≤ f.created)
          · have hdue : due c.period s.onfi f.created = true := by
              rw [← h.period]
              simp only [due, Bool.and_eq_true, bne_iff_ne, Bool.or_eq_true, decide_eq_true_eq]
              exact htold
            have htold' : p.period ≠ 0 ∧ (f.created < (toSt s).told ∨ (toSt s).told + p.period ≤ f.created) := htold
            simp only [if_pos htold'] at hl ⊢
            obtain ⟨b2, k3, k4⟩ := cw_fill he (cw_amf (fmt := 1) (csid := s.ctx.csid) (type := 18) (msid := s.ctx.msid) (size := s.ctx.chunk) (onfi_amf (e.clock f.created)) (by omega)
              (by omega) (by simp [amfOnfi, Fld.Ok, Leaf.Ok]) (amf_ne _ _) (hl _ (List.mem_cons_of_mem _ (List.mem_cons_self ..))) (u32 f.dts))
            refine ⟨{ c.set { s with ctx := { s.ctx with wrote := true, lastTs := u32 f.dts }, onfi := f.created } with out := c.out ++ b1 ++ b2 }, b1 ++ b2, ?_,
              by simp, rfl, ?_, ?_⟩
            · simp only [step, hf]
              rw [if_pos hw, k1]
              show (if due c.period s.onfi f.created = true then _ else _) = _
              rw [if_pos hdue]
              show (onfi e _ _ >>= _) = _
              unfold onfi
              simp only []
              rw [k3]
              rfl
            · exact out_base (set_base h (s := { s with ctx := { s.ctx with wrote := true, lastTs := u32 f.dts }, onfi := f.created }) g1 g2 g3 g4 hu) _
            · rw [g1] at k4
              have := CodedAll.cons k2 k4
              simp only [lows, low, List.map_cons, List.map_nil, hcsid]
              exact this
          · have hdue : ¬ due c.period s.onfi f.created = true := by
              rw [← h.period]
              simp only [due, Bool.and_eq_true, bne_iff_ne, Bool.or_eq_true, decide_eq_true_eq]
              exact htold
            have htold' : ¬ (p.period ≠ 0 ∧ (f.created < (toSt s).told ∨ (toSt s).told + p.period ≤ f.created)) := htold
            simp only [if_neg htold'] at hl ⊢
            refine ⟨{ c.set { s with ctx := { s.ctx with wrote := true, lastTs := u32 f.dts } } with out := c.out ++ b1 }, b1, ?_,
              by simp, rfl, ?_, ?_⟩
            · simp only [step, hf]
              rw [if_pos hw, k1]
              show (if due c.period s.onfi f.created = true then _ else _) = _
              rw [if_neg hdue]
            · exact out_base (set_base h (s := { s with ctx := { s.ctx with wrote := true, lastTs := u32 f.dts } }) g1 g2 g3 g4 hu) _
            · have := CodedAll.cons k2 .nil
              rw [List.append_nil] at this
              simp only [lows, low, List.map_cons, List.map_nil, hcsid]
              exact this
        · rw [if_neg (by exact hw)] at ha
          simp at ha
  | unpublish n =>
    simp only [act, find_eq h] at ha
    cases hf : c.find n with
    | none => rw [hf] at ha; simp at ha
    | some s =>
      rw [hf] at ha
      simp only [Option.map_some, Option.some.injEq, Prod.mk.injEq] at ha
      obtain ⟨rfl, rfl⟩ := ha
      obtain ⟨g1, g2, g3, g4, g5⟩ := h.each s (find_mem hf).1
      obtain ⟨bs, h1, h2⟩ := cw_fill he (unstream_cw he (sc := s.ctx) (name := s.name) (tx := c.tx) (by omega) rfl rfl
        (by have := hl _ (List.mem_cons_self ..); rw [h.tx] at this; exact this)
        (by have := hl _ (List.mem_cons_of_mem _ (List.mem_cons_self ..)); rw [h.tx] at this; exact this))
      refine ⟨{ c with tx := (c.tx + 2) % 2 ^ 32, strms := c.strms.filter fun t => t.ctx.msid != n, out := c.out ++ bs }, bs, ?_, rfl, rfl, ?_, ?_⟩
      · simp only [step, hf, h1]
        rfl
      · refine ⟨h.count, by rw [h.tx], h.period, ?_, fun s hmem => h.each s (List.mem_filter.1 hmem).1⟩
        simp only [h.sts, List.filter_map]
        rfl
      · rw [g1] at h2
        rw [h.tx]
        exact h2

end Verif.KmpRtmp
