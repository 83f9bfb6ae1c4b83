import Verif.KmpIn
import Verif.BufChainProps

/-!
# Property C17: events depend on the byte stream only
-/

namespace Verif.KmpIn

open Verif.BufChain (copy skip)

/-! ## Specification: the stream as packets -/

/-- A packet: its 16 byte header, and what is behind it. -/
structure Packet where
  raw : List UInt8
  body : List UInt8
deriving Repr, DecidableEq

/-- What a header must be like. -/
def Valid (raw : List UInt8) : Prop :=
  ptype raw ∈ [tConnect, tMediaInfo, tFrame, tNull, tEos] ∧ 16 ≤ hsize raw ∧ hsize raw ≤ 65536 ∧
  dsize raw ≤ 16 * 1024 * 1024

instance (raw : List UInt8) : Decidable (Valid raw) := by unfold Valid; infer_instance

/-- A packet that is whole. -/
def Whole (p : Packet) : Prop :=
  p.raw.length = 16 ∧ Valid p.raw ∧ p.raw.length + p.body.length = hsize p.raw + dsize p.raw

/-- The bytes start with a header that is not valid. -/
def Bad (s : List UInt8) : Prop := 16 ≤ s.length ∧ ¬ Valid (s.take 16)

instance (s : List UInt8) : Decidable (Bad s) := by unfold Bad; infer_instance

/-- The bytes are the start of a packet that is not whole yet. -/
def Unfinished (s : List UInt8) : Prop :=
  s.length < 16 ∨ (Valid (s.take 16) ∧ s.length < hsize (s.take 16) + dsize (s.take 16))

/-- The stream `s` is the packets `ps` and then `rest`, which does not start with a whole packet. -/
def Splits (s : List UInt8) (ps : List Packet) (rest : List UInt8) : Prop :=
  s = ps.flatMap (fun p => p.raw ++ p.body) ++ rest ∧ (∀ p ∈ ps, Whole p) ∧ (Bad rest ∨ Unfinished rest)

/-! ## Specification: what a packet does -/

/-- What the receiver knows between packets, with the application. -/
structure Rx (σ : Type) where
  header : List UInt8
  skipLeft : Nat
  skipWaitKey : Bool
  waitKey : Bool
  timescale : Nat
  mediaType : Nat
  cur : Nat
  app : σ
  log : List Event

/-- The result of the connection when a handler fails. -/
def failure : Rc → Status
  | .abort => .internal
  | _ => .bad

/-- One event. -/
def Rx.say {σ : Type} (a : App σ) (r : Rx σ) (e : Event) : Rx σ :=
  { r with app := (a.handle r.app e).1, log := r.log ++ [e] }

/-- A frame is taken only when none is to be skipped, there was media info, it has data, a subtitle has a
duration, and it is a key frame if one is waited for. -/
def Rx.takes {σ : Type} (r : Rx σ) (flags pts size : Nat) : Prop :=
  r.skipLeft = 0 ∧ r.timescale ≠ 0 ∧ size ≠ 0 ∧ (r.mediaType = 2 → 0 < pts ∧ pts < 2 ^ 31) ∧
  (r.waitKey = true → flags % 2 = 1)

instance {σ : Type} (r : Rx σ) (flags pts size : Nat) : Decidable (r.takes flags pts size) := by
  unfold Rx.takes; infer_instance

/-- What a packet does. Its data is what is behind the `hsize` bytes of the header. For a connect packet
the header counts as 104 bytes long before its extension, as it is for the first packet of the stream,
of which 104 bytes are read before. -/
def Rx.packet {σ : Type} (a : App σ) (r : Rx σ) (p : Packet) : Rx σ × Option Status :=
  let data := p.body.drop (hsize p.raw - 16)
  let size := dsize p.raw
  if ptype p.raw = tConnect then
    let e := Event.connectData r.header (p.body.drop (hsize p.raw - 104))
    (r.say a e, if (a.handle r.app e).2 = .ok then none else some (failure (a.handle r.app e).2))
  else if ptype p.raw = tMediaInfo then
    let info := p.body.take 32
    if hsize p.raw < 48 ∨ field info 8 4 = 0 then (r, some .bad)
    else
      let e := Event.mediaInfo info data size
      if (a.handle r.app e).2 = .ok ∨ (a.handle r.app e).2 = .done then
        ({ r.say a e with timescale := field info 8 4, mediaType := field info 0 4, waitKey := field info 0 4 = 0 },
          none)
      else (r.say a e, some (failure (a.handle r.app e).2))
  else if ptype p.raw = tFrame then
    let f := p.body.take 24
    if hsize p.raw < 40 then (r, some .bad)
    else if r.takes (field f 16 4) (field f 20 4) size then
      let e := Event.frame r.cur (field f 0 8) (field f 8 8) (field f 16 4 % 2) (field f 20 4) data size
      let r1 := { r.say a e with waitKey := false }
      if (a.handle r.app e).2 = .ok ∨ (a.handle r.app e).2 = .done then
        ({ r1 with cur := (r.cur + 1) % 2 ^ 64 }, none)
      else (r1, some (failure (a.handle r.app e).2))
    else
      ({ r with cur := (r.cur + 1) % 2 ^ 64, skipLeft := r.skipLeft - 1,
                waitKey := if r.skipLeft = 1 ∧ r.skipWaitKey then false else r.waitKey }, none)
  else if ptype p.raw = tEos then (r.say a .endStream, some .ok)
  else (r, none)

/-- Packets in a row, up to the end of the connection. -/
def Rx.packets {σ : Type} (a : App σ) : Rx σ → List Packet → Rx σ × Option Status
  | r, [] => (r, none)
  | r, p :: ps => match r.packet a p with
    | (r1, some st) => (r1, some st)
    | (r1, none) => r1.packets a ps

/-- What has happened after the bytes `rest` behind whole packets `ps`. -/
def Rx.stream {σ : Type} (a : App σ) (r : Rx σ) (ps : List Packet) (rest : List UInt8) : Rx σ × Option Status :=
  match r.packets a ps with
  | (r1, some st) => (r1, some st)
  | (r1, none) => (r1, if Bad rest then some .bad else none)

/-! ## Lemmas: chains -/

theorem copy_len {α : Type} : ∀ (c : List (List α)) (n : Nat), (copy c n).2.length ≤ c.length
  | [], 0 => Nat.le_refl _
  | [], _ + 1 => Nat.le_refl _
  | _ :: _, 0 => Nat.le_refl _
  | b :: rest, n + 1 => by
    unfold copy
    split
    · simp
    · exact Nat.le_succ_of_le (copy_len rest _)

theorem skip_len {α : Type} : ∀ (c : List (List α)) (n : Nat), (skip c n).2.length ≤ c.length
  | [], 0 => Nat.le_refl _
  | [], _ + 1 => Nat.le_refl _
  | _ :: _, 0 => Nat.le_refl _
  | b :: rest, n + 1 => by
    unfold skip
    split
    · simp
    · exact Nat.le_succ_of_le (skip_len rest _)

theorem datas_zipWith : ∀ (c : List Node) (d : List (List UInt8)), c.length = d.length →
    datas (c.zipWith trim d) = d
  | [], [], _ => rfl
  | _ :: c, _ :: d, h => congrArg _ (datas_zipWith c d (Nat.succ.inj h))

theorem ids_zipWith : ∀ (c : List Node) (d : List (List UInt8)), c.length = d.length →
    (c.zipWith trim d).map (·.id) = c.map (·.id)
  | [], [], _ => rfl
  | n :: c, _ :: d, h => congrArg (n.id :: ·) (ids_zipWith c d (Nat.succ.inj h))

/-- The bytes of the packet that are there. -/
def got {σ : Type} (x : Ctx σ) : List UInt8 := (datas x.chain).flatten

/-- What matters between packets. -/
def rx {σ : Type} (x : Ctx σ) : Rx σ :=
  { header := x.buf, skipLeft := x.skipLeft, skipWaitKey := x.skipWaitKey, waitKey := x.waitKey,
    timescale := x.timescale, mediaType := x.mediaType, cur := x.cur, app := x.app, log := x.log }

/-- The state of the reader is the same. -/
def Same {σ : Type} (x y : Ctx σ) : Prop :=
  y.headerRead = x.headerRead ∧ y.buf = x.buf ∧ y.raw = x.raw ∧ y.part = x.part ∧ y.left = x.left

theorem copyHeader_spec {σ : Type} (x : Ctx σ) (size : Nat) (h16 : 16 ≤ hsize x.raw)
    (hb : 16 + (got x).length = hsize x.raw + dsize x.raw) :
    (hsize x.raw < 16 + size ∧ copyHeader x size = (x, .inl .bad)) ∨
    (16 + size ≤ hsize x.raw ∧ ∃ f c, copyHeader x size =
        ({ x with freed := f, chain := c }, .inr ((got x).take size)) ∧
      (datas c).flatten = (got x).drop (hsize x.raw - 16) ∧
      f ++ c.map (·.id) = x.freed ++ x.chain.map (·.id)) := by
  unfold copyHeader hdrLen
  dsimp only
  by_cases hs : hsize x.raw - 16 < size
  · left
    rw [if_pos hs]
    exact ⟨by omega, rfl⟩
  · right
    rw [if_neg hs]
    refine ⟨by omega, ?_⟩
    have hle : size ≤ (datas x.chain).flatten.length := by
      show size ≤ (got x).length
      omega
    have hc := BufChain.copy_exact (datas x.chain) size hle
    have hcl := copy_len (datas x.chain) size
    have e : copy (datas x.chain) size = (some ((datas x.chain).flatten.take size), (copy (datas x.chain) size).2) := by
      rw [← hc.1]
    rw [e]
    dsimp only
    generalize hd : (copy (datas x.chain) size).2 = d at hc hcl ⊢
    have hdlen : d.flatten.length = (got x).length - size := by
      rw [hc.2, List.length_drop]
      rfl
    have key : ∃ r, (if hsize x.raw - 16 - size > 0 then skip d (hsize x.raw - 16 - size) else (true, d)) = (true, r) ∧
        r.flatten = (got x).drop (hsize x.raw - 16) ∧ r.length ≤ d.length := by
      split
      · have hk := BufChain.skip_exact d (hsize x.raw - 16 - size)
        refine ⟨(skip d (hsize x.raw - 16 - size)).2, ?_, ?_, skip_len d _⟩
        · rw [← hk.1.mpr (by omega)]
        · rw [hk.2, hc.2, List.drop_drop]
          congr 1
          omega
      · refine ⟨d, rfl, ?_, Nat.le_refl _⟩
        rw [hc.2]
        congr 1
        omega
    obtain ⟨r, hr, hf, hrl⟩ := key
    rw [hr]
    dsimp only
    rw [if_neg (by simp)]
    have hlen : r.length ≤ x.chain.length := by
      have : (datas x.chain).length = x.chain.length := List.length_map _
      omega
    have hz : (x.chain.drop (x.chain.length - r.length)).length = r.length := by
      rw [List.length_drop]
      omega
    refine ⟨_, _, rfl, ?_, ?_⟩
    · rw [datas_zipWith _ _ hz, hf]
    · rw [ids_zipWith _ _ hz, List.append_assoc, ← List.map_append, List.take_append_drop]

/-! ## Lemmas: packets -/

theorem Same.refl {σ : Type} (x : Ctx σ) : Same x x := ⟨rfl, rfl, rfl, rfl, rfl⟩

theorem connectData_spec {σ : Type} (a : App σ) (x : Ctx σ) (hb : hsize x.raw - 104 ≤ (got x).length)
    (ht : ptype x.raw = tConnect) :
    (rx (connectData a x).1, (connectData a x).2) = (rx x).packet a ⟨x.raw, got x⟩ ∧ Same x (connectData a x).1 := by
  have key : ∃ r, (if hsize x.raw > connectLen then skip (datas x.chain) (hsize x.raw - connectLen)
      else (true, datas x.chain)) = (true, r) ∧ r.flatten = (got x).drop (hsize x.raw - 104) := by
    unfold connectLen
    split
    · have hk := BufChain.skip_exact (datas x.chain) (hsize x.raw - 104)
      refine ⟨(skip (datas x.chain) (hsize x.raw - 104)).2, ?_, hk.2⟩
      rw [← hk.1.mpr hb]
    · refine ⟨_, rfl, ?_⟩
      rw [show hsize x.raw - 104 = 0 by omega]
      rfl
  obtain ⟨r, hr, hf⟩ := key
  unfold connectData
  rw [hr]
  dsimp only
  rw [if_neg (by simp), hf]
  unfold Rx.packet
  dsimp only
  rw [if_pos ht]
  unfold call
  dsimp only
  have e : (rx x).header = x.buf := rfl
  rw [e]
  have e2 : (rx x).app = x.app := rfl
  rw [e2]
  cases hrc : (a.handle x.app (Event.connectData x.buf (List.drop (hsize x.raw - 104) (got x)))).snd <;>
    exact ⟨rfl, rfl, rfl, rfl, rfl, rfl⟩

theorem mediaInfo_spec {σ : Type} (a : App σ) (x : Ctx σ) (h16 : 16 ≤ hsize x.raw)
    (hb : 16 + (got x).length = hsize x.raw + dsize x.raw) (ht : ptype x.raw = tMediaInfo) :
    (rx (mediaInfo a x).1, (mediaInfo a x).2) = (rx x).packet a ⟨x.raw, got x⟩ ∧ Same x (mediaInfo a x).1 := by
  unfold mediaInfo Rx.packet
  dsimp only
  rw [if_neg (by rw [ht]; decide), if_pos ht]
  rcases copyHeader_spec x mediaInfoLen h16 hb with ⟨hs, e⟩ | ⟨hs, f, c, e, hf, _⟩
  · have hs : hsize x.raw < 48 := hs
    rw [e, if_pos (Or.inl hs)]
    exact ⟨rfl, .refl x⟩
  · rw [e]
    dsimp only
    have e32 : mediaInfoLen = 32 := rfl
    rw [e32] at hs ⊢
    by_cases h0 : field (List.take 32 (got x)) 8 4 = 0
    · rw [if_pos (by omega), if_pos (Or.inr h0)]
      exact ⟨rfl, rfl, rfl, rfl, rfl, rfl⟩
    · rw [if_neg (by omega), if_neg (by omega)]
      unfold call
      dsimp only
      have ea : (rx x).app = x.app := rfl
      rw [hf, ea]
      cases hrc : (a.handle x.app (Event.mediaInfo (List.take 32 (got x)) (List.drop (hsize x.raw - 16) (got x))
        (dsize x.raw))).snd <;>
        exact ⟨rfl, rfl, rfl, rfl, rfl, rfl⟩

theorem frame_spec {σ : Type} (a : App σ) (x : Ctx σ) (h16 : 16 ≤ hsize x.raw)
    (hb : 16 + (got x).length = hsize x.raw + dsize x.raw) (ht : ptype x.raw = tFrame) :
    (rx (frame a x).1, (frame a x).2) = (rx x).packet a ⟨x.raw, got x⟩ ∧ Same x (frame a x).1 := by
  unfold frame Rx.packet
  dsimp only
  rw [if_neg (by rw [ht]; decide), if_neg (by rw [ht]; decide), if_pos ht]
  have e24 : frameLen = 24 := rfl
  rcases copyHeader_spec x frameLen h16 hb with ⟨hs, e⟩ | ⟨hs, f, c, e, hf, _⟩
  · rw [e, if_pos (by rw [e24] at hs; omega)]
    exact ⟨rfl, .refl x⟩
  · rw [e]
    dsimp only
    rw [e24] at hs ⊢
    rw [if_neg (show ¬ hsize x.raw < 40 by omega)]
    generalize hfl : field (List.take 24 (got x)) 16 4 = flags
    generalize hpt : field (List.take 24 (got x)) 20 4 = pts
    have es : (rx x).skipLeft = x.skipLeft := rfl
    have et : (rx x).timescale = x.timescale := rfl
    have em : (rx x).mediaType = x.mediaType := rfl
    have ew : (rx x).waitKey = x.waitKey := rfl
    have htk : (rx x).takes flags pts (dsize x.raw) ↔ x.skipLeft = 0 ∧ x.timescale ≠ 0 ∧ dsize x.raw ≠ 0 ∧
      (x.mediaType = 2 → 0 < pts ∧ pts < 2 ^ 31) ∧ (x.waitKey = true → flags % 2 = 1) := Iff.rfl
    rw [es, ew]
    by_cases h1 : x.skipLeft > 0
    · rw [if_pos h1, if_neg (fun h : (rx x).takes flags pts (dsize x.raw) => by have := (htk.mp h).1; omega)]
      have e1 : x.skipLeft - 1 ≤ 0 ↔ x.skipLeft = 1 := by omega
      have esw : (rx x).skipWaitKey = x.skipWaitKey := rfl
      rw [esw]
      by_cases h2 : x.skipLeft = 1 ∧ x.skipWaitKey = true
      · rw [if_pos h2, if_pos (by rw [e1]; exact h2)]
        exact ⟨rfl, rfl, rfl, rfl, rfl, rfl⟩
      · rw [if_neg h2, if_neg (by rw [e1]; exact h2)]
        exact ⟨rfl, rfl, rfl, rfl, rfl, rfl⟩
    · rw [if_neg h1]
      have h1 : x.skipLeft = 0 := by omega
      have drop : ∀ (y : Ctx σ), rx y = rx x → Same x y →
          ((rx (nextFrame y), (none : Option Status)) =
            ({ rx x with cur := ((rx x).cur + 1) % 2 ^ 64, skipLeft := x.skipLeft - 1,
                         waitKey := if x.skipLeft = 1 ∧ (rx x).skipWaitKey = true then false else x.waitKey }, none)) ∧
          Same x (nextFrame y) := by
        intro y hy hs
        refine ⟨?_, hs⟩
        rw [h1, if_neg (by omega), ← ew, ← hy]
        congr 1
        show { rx y with cur := ((rx y).cur + 1) % 2 ^ 64 } = _
        have : (rx y).skipLeft = 0 := by rw [hy, es, h1]
        generalize rx y = z at this ⊢
        cases z
        cases this
        rfl
      by_cases h2 : x.timescale ≤ 0
      · rw [if_pos h2, if_neg (fun h : (rx x).takes flags pts (dsize x.raw) => (htk.mp h).2.1 (by omega))]
        exact drop _ rfl ⟨rfl, rfl, rfl, rfl, rfl⟩
      rw [if_neg h2]
      by_cases h3 : dsize x.raw = 0
      · rw [if_pos h3, if_neg (fun h : (rx x).takes flags pts (dsize x.raw) => (htk.mp h).2.2.1 h3)]
        exact drop _ rfl ⟨rfl, rfl, rfl, rfl, rfl⟩
      rw [if_neg h3]
      by_cases h4 : x.mediaType = 2 ∧ (pts = 0 ∨ pts ≥ 2 ^ 31)
      · rw [if_pos h4, if_neg (fun h : (rx x).takes flags pts (dsize x.raw) => by have := (htk.mp h).2.2.2.1 h4.1; omega)]
        exact drop _ rfl ⟨rfl, rfl, rfl, rfl, rfl⟩
      rw [if_neg h4]
      by_cases h5 : x.waitKey = true ∧ flags % 2 = 0
      · rw [if_pos h5, if_neg (fun h : (rx x).takes flags pts (dsize x.raw) => by have := (htk.mp h).2.2.2.2 h5.1; omega)]
        exact drop _ rfl ⟨rfl, rfl, rfl, rfl, rfl⟩
      rw [if_neg h5]
      rw [if_pos <| htk.mpr ⟨h1, by omega, h3, fun h => by
        have h4 : ¬ (pts = 0 ∨ pts ≥ 2 ^ 31) := fun h' => h4 ⟨h, h'⟩
        omega, fun h => by
        have h5 : ¬ flags % 2 = 0 := fun h' => h5 ⟨h, h'⟩
        omega⟩]
      unfold call
      dsimp only
      have ea : (rx x).app = x.app := rfl
      have ec : (rx x).cur = x.cur := rfl
      rw [hf, ea, ec]
      cases hrc : (a.handle x.app (Event.frame x.cur (field (List.take 24 (got x)) 0 8) (field (List.take 24 (got x)) 8 8)
        (flags % 2) pts (List.drop (hsize x.raw - 16) (got x)) (dsize x.raw))).snd <;>
        (refine ⟨?_, rfl, rfl, rfl, rfl, rfl⟩; rfl)

theorem dispatch_spec {σ : Type} (a : App σ) (x : Ctx σ) (hv : Valid x.raw)
    (hb : 16 + (got x).length = hsize x.raw + dsize x.raw ∨
      (ptype x.raw = tConnect ∧ 104 ≤ hsize x.raw ∧ 104 + (got x).length = hsize x.raw + dsize x.raw)) :
    (rx (dispatch a x).1, (dispatch a x).2) = (rx x).packet a ⟨x.raw, got x⟩ ∧ Same x (dispatch a x).1 ∧
      ((dispatch a x).2 = none → (dispatch a x).1.chain = []) := by
  obtain ⟨htype, h16, -, -⟩ := hv
  have fin : ∀ r : Ctx σ × Option Status, (rx r.1, r.2) = (rx x).packet a ⟨x.raw, got x⟩ ∧ Same x r.1 →
      (let q := match r with
        | (x1, none) => (freeChain x1, none)
        | (x1, some st) => (x1, some st)
       (rx q.1, q.2) = (rx x).packet a ⟨x.raw, got x⟩ ∧ Same x q.1 ∧ (q.2 = none → q.1.chain = [])) := by
    rintro ⟨x1, none | st⟩ ⟨h1, h2⟩
    · exact ⟨h1, h2, fun _ => rfl⟩
    · exact ⟨h1, h2, fun h => nomatch h⟩
  unfold dispatch
  apply fin
  by_cases h1 : ptype x.raw = tConnect
  · rw [if_pos h1]
    exact connectData_spec a x (by omega) h1
  rw [if_neg h1]
  have hb := hb.resolve_right (fun h => h1 h.1)
  by_cases h2 : ptype x.raw = tMediaInfo
  · rw [if_pos h2]
    exact mediaInfo_spec a x h16 hb h2
  rw [if_neg h2]
  by_cases h3 : ptype x.raw = tFrame
  · rw [if_pos h3]
    exact frame_spec a x h16 hb h3
  rw [if_neg h3]
  by_cases h4 : ptype x.raw = tNull
  · rw [if_pos h4]
    unfold Rx.packet
    dsimp only
    rw [if_neg h1, if_neg h2, if_neg h3, if_neg (by rw [h4]; decide)]
    exact ⟨rfl, .refl x⟩
  rw [if_neg h4]
  have h5 : ptype x.raw = tEos := by
    simp only [List.mem_cons, List.not_mem_nil, or_false] at htype
    rcases htype with h | h | h | h | h
    · exact absurd h h1
    · exact absurd h h2
    · exact absurd h h3
    · exact absurd h h4
    · exact h
  rw [if_pos h5]
  unfold Rx.packet
  dsimp only
  rw [if_neg h1, if_neg h2, if_neg h3, if_pos h5]
  exact ⟨rfl, rfl, rfl, rfl, rfl, rfl⟩

/-! ## Lemmas: splitting a stream -/

theorem whole_take {p : Packet} (h : Whole p) (t : List UInt8) :
    (p.raw ++ p.body ++ t).take 16 = p.raw ∧ 16 ≤ (p.raw ++ p.body ++ t).length := by
  constructor
  · rw [List.append_assoc, ← h.1, List.take_left]
  · rw [List.length_append, List.length_append, h.1]
    omega

/-- A stream that does not start with a whole packet has only itself as rest. -/
theorem splits_none {s : List UInt8} {ps : List Packet} {rest : List UInt8} (h : Splits s ps rest)
    (hs : Bad s ∨ Unfinished s) : ps = [] ∧ rest = s := by
  obtain ⟨e, hw, _⟩ := h
  match ps, hw with
  | [], _ => exact ⟨rfl, e.symm⟩
  | p :: ps, hw =>
    exfalso
    have hp := hw p (List.mem_cons_self ..)
    rw [List.flatMap_cons, List.append_assoc] at e
    have ht := whole_take hp (ps.flatMap (fun p => p.raw ++ p.body) ++ rest)
    rw [← e] at ht
    rcases hs with hs | hs | hs
    · exact hs.2 (by rw [ht.1]; exact hp.2.1)
    · omega
    · rw [ht.1] at hs
      have := hs.2
      rw [e, List.length_append, List.length_append] at this
      have := hp.2.2
      omega

theorem splits_cons {p : Packet} {t : List UInt8} {ps : List Packet} {rest : List UInt8}
    (h : Splits (p.raw ++ p.body ++ t) ps rest) (hp : Whole p) : ∃ ps', ps = p :: ps' ∧ Splits t ps' rest := by
  obtain ⟨e, hw, hr⟩ := h
  have ht := whole_take hp t
  match ps, hw with
  | [], _ =>
    exfalso
    rw [List.flatMap_nil, List.nil_append] at e
    subst e
    rcases hr with hr | hr | hr
    · exact hr.2 (by rw [ht.1]; exact hp.2.1)
    · omega
    · rw [ht.1, List.length_append, List.length_append] at hr
      have := hp.2.2
      omega
  | q :: ps, hw =>
    have hq := hw q (List.mem_cons_self ..)
    rw [List.flatMap_cons, List.append_assoc (q.raw ++ q.body)] at e
    have hqt := whole_take hq (ps.flatMap (fun p => p.raw ++ p.body) ++ rest)
    rw [← e, ht.1] at hqt
    have e1 : p.raw = q.raw := hqt.1
    rw [e1] at e
    have hl : p.body.length = q.body.length := by
      have h1 := hp.2.2
      have h2 := hq.2.2
      rw [e1] at h1
      omega
    rw [List.append_assoc, List.append_assoc] at e
    have e := List.append_cancel_left e
    obtain ⟨e2, e3⟩ := List.append_inj e hl
    refine ⟨ps, ?_, e3, fun r hr => hw r (List.mem_cons_of_mem _ hr), hr⟩
    cases p
    cases q
    cases e1
    cases e2
    rfl

/-- Every stream can be split into packets and a rest. -/
theorem splits_exists (s : List UInt8) : ∃ ps rest, Splits s ps rest := by
  generalize hn : s.length = n
  induction n using Nat.strongRecOn generalizing s with
  | ind n ih =>
    by_cases h16 : s.length < 16
    · exact ⟨[], s, rfl, (fun _ h => nomatch h), Or.inr (Or.inl h16)⟩
    by_cases hv : Valid (s.take 16)
    · by_cases hl : s.length < hsize (s.take 16) + dsize (s.take 16)
      · exact ⟨[], s, rfl, (fun _ h => nomatch h), Or.inr (Or.inr ⟨hv, hl⟩)⟩
      · have hv' := hv
        obtain ⟨-, hv1, -, -⟩ := hv'
        obtain ⟨ps, rest, e, hw, hr⟩ := ih (s.length - (hsize (s.take 16) + dsize (s.take 16))) (by omega)
          (s.drop (hsize (s.take 16) + dsize (s.take 16))) (by rw [List.length_drop])
        refine ⟨⟨s.take 16, (s.drop 16).take (hsize (s.take 16) + dsize (s.take 16) - 16)⟩ :: ps, rest, ?_, ?_, hr⟩
        · rw [List.flatMap_cons, List.append_assoc, ← e]
          dsimp only
          rw [List.append_assoc]
          have : s.drop (hsize (s.take 16) + dsize (s.take 16)) =
              (s.drop 16).drop (hsize (s.take 16) + dsize (s.take 16) - 16) := by
            rw [List.drop_drop]
            congr 1
            omega
          rw [this, List.take_append_drop, List.take_append_drop]
        · intro p hp
          rcases List.mem_cons.mp hp with rfl | hp
          · refine ⟨?_, hv, ?_⟩
            · rw [List.length_take]; omega
            · dsimp only
              rw [List.length_take, List.length_take, List.length_drop]
              omega
          · exact hw p hp
    · exact ⟨[], s, rfl, (fun _ h => nomatch h), Or.inl ⟨by omega, hv⟩⟩

/-- There is only one way to split a stream. -/
theorem splits_unique {s : List UInt8} {ps ps' : List Packet} {rest rest' : List UInt8}
    (h : Splits s ps rest) (h' : Splits s ps' rest') : ps = ps' ∧ rest = rest' := by
  induction ps generalizing s ps' with
  | nil =>
    obtain ⟨e, -, hr⟩ := h
    rw [List.flatMap_nil, List.nil_append] at e
    subst e
    obtain ⟨e1, e2⟩ := splits_none h' hr
    exact ⟨e1.symm, e2.symm⟩
  | cons p ps ih =>
    obtain ⟨e, hw, hr⟩ := h
    rw [List.flatMap_cons, List.append_assoc] at e
    subst e
    obtain ⟨ps2, rfl, h2⟩ := splits_cons h' (hw p (List.mem_cons_self ..))
    obtain ⟨e1, e2⟩ := ih ⟨rfl, fun r hr => hw r (List.mem_cons_of_mem _ hr), hr⟩ h2
    exact ⟨by rw [e1], e2⟩

/-! ## Lemmas: processing a buffer -/

theorem headerOk_iff (raw : List UInt8) : headerOk raw = true ↔ Valid raw := by
  unfold headerOk Valid hdrLen maxHeader maxData
  simp only [Bool.and_eq_true, Bool.or_eq_true, decide_eq_true_eq, List.mem_cons, List.not_mem_nil, or_false,
    and_assoc, or_assoc, ge_iff_le, Nat.reduceMul]

theorem link_spec {σ : Type} (x : Ctx σ) (addr : Nat) (b : List UInt8) :
    got (link x addr b) = got x ++ b ∧ rx (link x addr b) = rx x ∧ Same x (link x addr b) := by
  unfold link
  split
  · rename_i n hn
    split
    · refine ⟨?_, rfl, .refl _⟩
      unfold got datas
      obtain ⟨ys, e⟩ := List.getLast?_eq_some_iff.mp hn
      rw [e, List.dropLast_concat]
      simp
    · refine ⟨?_, rfl, .refl _⟩
      unfold got datas
      simp
  · rename_i hn
    refine ⟨?_, rfl, .refl _⟩
    rw [List.getLast?_eq_none_iff] at hn
    unfold got datas
    rw [hn]
    simp

/-- A packet is being read; `base` bytes of it are not in the chain. -/
def Reading {σ : Type} (x : Ctx σ) (base : Nat) : Prop :=
  Valid x.raw ∧ base + (got x).length + x.left = hsize x.raw + dsize x.raw ∧
  (base = 16 ∨ (base = 104 ∧ ptype x.raw = tConnect ∧ 104 ≤ hsize x.raw))

theorem body_spec {σ : Type} (a : App σ) (x : Ctx σ) (addr : Nat) (b : List UInt8) {base : Nat} (h : Reading x base) :
    (b.length < x.left ∧ ∃ x', body a x addr b = (x', none, none) ∧ rx x' = rx x ∧ got x' = got x ++ b ∧
      x'.left = x.left - b.length ∧ x'.raw = x.raw ∧ x'.part = x.part ∧ x'.headerRead = x.headerRead) ∨
    (x.left ≤ b.length ∧ ∃ x',
      ((∃ st, body a x addr b = (x', none, some st) ∧
        (rx x', some st) = (rx x).packet a ⟨x.raw, got x ++ b.take x.left⟩) ∨
       (body a x addr b = (x', some (b.drop x.left), none) ∧
        (rx x', none) = (rx x).packet a ⟨x.raw, got x ++ b.take x.left⟩ ∧ x'.chain = [] ∧ x'.left = 0)) ∧
      x'.part = x.part ∧ x'.headerRead = x.headerRead) := by
  obtain ⟨hv, hlen, hbase⟩ := h
  unfold body
  dsimp only
  by_cases hlt : b.length < x.left
  · left
    refine ⟨hlt, ?_⟩
    rw [Nat.min_eq_left (by omega)]
    by_cases hz : b.length > 0
    · rw [if_pos hz, List.take_length]
      obtain ⟨e1, e2, e3⟩ := link_spec x addr b
      rw [if_pos (show x.left - b.length > 0 by omega)]
      exact ⟨_, rfl, e2, e1, rfl, e3.2.2.1, e3.2.2.2.1, e3.1⟩
    · have : b = [] := List.eq_nil_of_length_eq_zero (by omega)
      subst this
      rw [if_neg hz, if_pos (show x.left > 0 from hlt)]
      exact ⟨_, rfl, rfl, (List.append_nil _).symm, rfl, rfl, rfl, rfl⟩
  · right
    refine ⟨by omega, ?_⟩
    rw [Nat.min_eq_right (by omega)]
    have key : ∃ y, (if x.left > 0 then { link x addr (b.take x.left) with left := x.left - x.left } else x) = y ∧
        got y = got x ++ b.take x.left ∧ rx y = rx x ∧ y.left = 0 ∧ y.raw = x.raw ∧ y.part = x.part ∧
        y.headerRead = x.headerRead := by
      obtain ⟨e1, e2, e3⟩ := link_spec x addr (b.take x.left)
      split
      · exact ⟨_, rfl, e1, e2, Nat.sub_self _, e3.2.2.1, e3.2.2.2.1, e3.1⟩
      · have hz : x.left = 0 := by omega
        rw [hz]
        exact ⟨_, rfl, (List.append_nil _).symm, rfl, hz, rfl, rfl, rfl⟩
    obtain ⟨y, hy, g1, g2, g3, g4, g5, g6⟩ := key
    rw [hy, if_neg (by omega)]
    have hgl : (got y).length = (got x).length + x.left := by
      rw [g1, List.length_append, List.length_take]
      omega
    have hd := dispatch_spec a y (by rw [g4]; exact hv) (by rw [hgl, g4]; omega)
    rw [g1, g2, g4] at hd
    match hr : dispatch a y with
    | (x2, some st) =>
      rw [hr] at hd
      obtain ⟨d1, d2, d3⟩ := hd
      exact ⟨x2, Or.inl ⟨st, rfl, d1⟩, d2.2.2.2.1.trans g5, d2.1.trans g6⟩
    | (x2, none) =>
      rw [hr] at hd
      obtain ⟨d1, d2, d3⟩ := hd
      exact ⟨x2, Or.inr ⟨rfl, d1, d3 rfl, d2.2.2.2.2.trans g3⟩, d2.2.2.2.1.trans g5, d2.1.trans g6⟩

/-- The reader holds the bytes `r` of an unfinished packet. -/
def Holds {σ : Type} (x : Ctx σ) (r : List UInt8) : Prop :=
  (r.length < 16 ∧ x.left = 0 ∧ x.chain = [] ∧ x.part = r) ∨
  (16 ≤ r.length ∧ x.raw = r.take 16 ∧ got x = r.drop 16 ∧ x.part = [] ∧ 0 < x.left ∧ Reading x 16)

theorem process_idle {σ : Type} (a : App σ) : ∀ (k : Nat) (b : List UInt8) (x : Ctx σ) (addr : Nat), b.length < k →
    x.left = 0 → x.chain = [] → x.part.length < 16 → ∀ (ps : List Packet) (rest : List UInt8),
    Splits (x.part ++ b) ps rest →
    ∃ x' st, process a k x addr b = some (x', st) ∧ (rx x', st) = (rx x).stream a ps rest ∧
      x'.headerRead = x.headerRead ∧ (st = none → Holds x' rest)
  | 0, _, _, _, h, _, _, _, _, _, _ => by omega
  | k + 1, [], x, addr, _, hl, hc, hp, ps, rest, hs => by
    rw [List.append_nil] at hs
    obtain ⟨rfl, rfl⟩ := splits_none hs (Or.inr (Or.inl hp))
    refine ⟨x, none, rfl, ?_, rfl, fun _ => Or.inl ⟨hp, hl, hc, rfl⟩⟩
    unfold Rx.stream Rx.packets
    dsimp only
    rw [if_neg (fun h => by have := h.1; omega)]
  | k + 1, c :: cs, x, addr, hk, hl, hc, hp, ps, rest, hs => by
    unfold process
    dsimp only
    rw [if_pos (by omega)]
    have e16 : hdrLen = 16 := rfl
    rw [e16]
    generalize hb : c :: cs = b at hs hk ⊢
    by_cases hlt : b.length < 16 - x.part.length
    · rw [if_pos hlt]
      have hsl : (x.part ++ b).length < 16 := by rw [List.length_append]; omega
      obtain ⟨rfl, rfl⟩ := splits_none hs (Or.inr (Or.inl hsl))
      refine ⟨_, none, rfl, ?_, rfl, fun _ => Or.inl ⟨hsl, hl, hc, rfl⟩⟩
      unfold Rx.stream Rx.packets
      dsimp only
      rw [if_neg (fun h => by have := h.1; omega)]
      rfl
    · rw [if_neg hlt]
      have hraw : x.part ++ b.take (16 - x.part.length) = (x.part ++ b).take 16 := by
        conv => rhs; rw [List.take_append, List.take_of_length_le (show x.part.length ≤ 16 by omega)]
      have hrest : b.drop (16 - x.part.length) = (x.part ++ b).drop 16 := by
        conv => rhs; rw [List.drop_append, List.drop_eq_nil_of_le (show x.part.length ≤ 16 by omega), List.nil_append]
      have hsl : 16 ≤ (x.part ++ b).length := by rw [List.length_append]; omega
      rw [hraw, hrest]
      by_cases hv : Valid ((x.part ++ b).take 16)
      · rw [if_neg (by rw [headerOk_iff]; exact not_not_intro hv)]
        generalize hy : Ctx.mk x.headerRead x.buf ((x.part ++ b).take 16) []
          (hsize ((x.part ++ b).take 16) + dsize ((x.part ++ b).take 16) - 16) x.chain x.skipLeft x.skipWaitKey
          x.waitKey x.timescale x.mediaType x.cur x.acked x.nextNode x.freed x.passed x.app x.log = y
        have y1 : y.raw = (x.part ++ b).take 16 := by rw [← hy]
        have y2 : y.part = [] := by rw [← hy]
        have y3 : y.left = hsize ((x.part ++ b).take 16) + dsize ((x.part ++ b).take 16) - 16 := by rw [← hy]
        have y4 : got y = [] := by rw [← hy]; unfold got; dsimp only; rw [hc]; rfl
        have y5 : rx y = rx x := by rw [← hy]; rfl
        have y6 : y.headerRead = x.headerRead := by rw [← hy]
        have hv16 : 16 ≤ hsize ((x.part ++ b).take 16) := hv.2.1
        have hR : Reading y 16 := ⟨by rw [y1]; exact hv, by rw [y4, y3, y1]; simp only [List.length_nil]; omega, Or.inl rfl⟩
        have hdl : ((x.part ++ b).drop 16).length = (x.part ++ b).length - 16 := List.length_drop
        rcases body_spec a y _ ((x.part ++ b).drop 16) hR with ⟨hlt2, z, e, z1, z2, z3, z4, z5, z6⟩ |
          ⟨hge, z, hcase, z5, z6⟩
        · rw [e]
          obtain ⟨rfl, rfl⟩ := splits_none hs (Or.inr (Or.inr ⟨hv, by omega⟩))
          refine ⟨z, none, rfl, ?_, z6.trans y6, fun _ => Or.inr ⟨hsl, z4.trans y1, ?_, z5.trans y2, by omega, ?_⟩⟩
          · unfold Rx.stream Rx.packets
            dsimp only
            rw [if_neg (fun h => h.2 hv), z1, y5]
          · rw [z2, y4, List.nil_append]
          · refine ⟨by rw [z4, y1]; exact hv, ?_, Or.inl rfl⟩
            rw [z2, y4, z3, z4, y1, List.nil_append]
            omega
        · rw [y1, y4, List.nil_append, y5] at hcase
          have hwhole : Whole ⟨(x.part ++ b).take 16, ((x.part ++ b).drop 16).take y.left⟩ := by
            refine ⟨?_, hv, ?_⟩
            · dsimp only
              rw [List.length_take]; omega
            · dsimp only
              rw [List.length_take, List.length_take]
              omega
          have hsplit : x.part ++ b = (x.part ++ b).take 16 ++ ((x.part ++ b).drop 16).take y.left ++
              ((x.part ++ b).drop 16).drop y.left := by
            rw [List.append_assoc, List.take_append_drop, List.take_append_drop]
          have hs' := hs
          rw [hsplit] at hs'
          obtain ⟨ps', rfl, hs2⟩ := splits_cons (p := ⟨_, _⟩) hs' hwhole
          rcases hcase with ⟨st, e, hpk⟩ | ⟨e, hpk, z7, z8⟩
          · rw [e]
            refine ⟨z, some st, rfl, ?_, z6.trans y6, fun h => nomatch h⟩
            unfold Rx.stream Rx.packets
            rw [← hpk]
          · rw [e]
            dsimp only
            have hzp : z.part = [] := z5.trans y2
            obtain ⟨x', st, e', hst, hh, hhold⟩ := process_idle a k (((x.part ++ b).drop 16).drop y.left) z _
              (by rw [List.length_drop]
                  have := congrArg List.length hb
                  rw [List.length_cons] at this
                  rw [List.length_append] at hdl hsl
                  omega) z8 z7 (by rw [hzp]; decide) ps' rest
              (by rw [hzp]; exact hs2)
            refine ⟨x', st, e', ?_, hh.trans (z6.trans y6), hhold⟩
            rw [hst]
            unfold Rx.stream
            conv => rhs; unfold Rx.packets
            rw [← hpk]
      · rw [if_pos (by rw [headerOk_iff]; exact hv)]
        have hbad : Bad (x.part ++ b) := ⟨hsl, hv⟩
        obtain ⟨rfl, rfl⟩ := splits_none hs (Or.inl hbad)
        refine ⟨_, some .bad, rfl, ?_, rfl, fun h => nomatch h⟩
        unfold Rx.stream Rx.packets
        dsimp only
        rw [if_pos hbad]
        rfl

theorem process_reading {σ : Type} (a : App σ) {base : Nat} (k : Nat) (b : List UInt8) (x : Ctx σ) (addr : Nat)
    (hk : b.length < k) (hb : b ≠ []) (hl : 0 < x.left) (hp : x.part = []) (hR : Reading x base) :
    (b.length < x.left ∧ ∃ x', process a k x addr b = some (x', none) ∧ rx x' = rx x ∧ got x' = got x ++ b ∧
      x'.left = x.left - b.length ∧ x'.raw = x.raw ∧ x'.part = [] ∧ x'.headerRead = x.headerRead) ∨
    (x.left ≤ b.length ∧ ∀ ps rest, Splits (b.drop x.left) ps rest →
      ∃ x' st, process a k x addr b = some (x', st) ∧
        (rx x', st) = (rx x).stream a (⟨x.raw, got x ++ b.take x.left⟩ :: ps) rest ∧
        x'.headerRead = x.headerRead ∧ (st = none → Holds x' rest)) := by
  obtain ⟨k, rfl⟩ : ∃ j, k = j + 1 := ⟨k - 1, by omega⟩
  obtain ⟨c, cs, rfl⟩ : ∃ c cs, b = c :: cs := by
    cases b with
    | nil => exact absurd rfl hb
    | cons c cs => exact ⟨c, cs, rfl⟩
  unfold process
  dsimp only
  rw [if_neg (by omega)]
  generalize c :: cs = b at hk ⊢
  rcases body_spec a x addr b hR with ⟨hlt, z, e, z1, z2, z3, z4, z5, z6⟩ | ⟨hge, z, hcase, z5, z6⟩
  · left
    rw [e]
    exact ⟨hlt, z, rfl, z1, z2, z3, z4, z5.trans hp, z6⟩
  · right
    refine ⟨hge, fun ps rest hs => ?_⟩
    rcases hcase with ⟨st, e, hpk⟩ | ⟨e, hpk, z7, z8⟩
    · rw [e]
      refine ⟨z, some st, rfl, ?_, z6, fun h => nomatch h⟩
      unfold Rx.stream Rx.packets
      rw [← hpk]
    · rw [e]
      dsimp only
      have hzp : z.part = [] := z5.trans hp
      obtain ⟨x', st, e', hst, hh, hhold⟩ := process_idle a k (b.drop x.left) z _
        (by rw [List.length_drop]; omega) z8 z7 (by rw [hzp]; decide) ps rest (by rw [hzp]; exact hs)
      refine ⟨x', st, e', ?_, hh.trans z6, hhold⟩
      rw [hst]
      unfold Rx.stream
      conv => rhs; unfold Rx.packets
      rw [← hpk]

/-! ## Specification: a whole connection -/

/-- What the first 104 bytes must be like: a connect packet with a valid frame id. -/
def ConnectOk (h : List UInt8) : Prop :=
  ptype h = tConnect ∧ 104 ≤ hsize h ∧ hsize h ≤ 65536 ∧ dsize h ≤ 16 * 1024 * 1024 ∧
  field h 80 8 < 2 ^ 64 - 1

/-- The receiver when the application has accepted the connection. -/
def Rx.start {σ : Type} (h : List UInt8) (s : σ) (count : Nat) (wait : Bool) : Rx σ :=
  { header := h, skipLeft := count, skipWaitKey := wait, waitKey := false, timescale := 0, mediaType := 0,
    cur := field h 80 8, app := s, log := [.connected h] }

/-- What the application has seen, its state, and how the connection ended if it did, when the bytes `s` were
received. The connect packet is the first packet; 104 bytes of it are read before the packets. -/
inductive Outcome {σ : Type} (a : App σ) (s0 : σ) (s : List UInt8) : List Event → σ → Option Status → Prop where
  | opening : s.length < 104 → Outcome a s0 s [] s0 none
  | refused : 104 ≤ s.length → ¬ ConnectOk (s.take 104) → Outcome a s0 s [] s0 (some .bad)
  | rejected {s1} : 104 ≤ s.length → ConnectOk (s.take 104) → a.connected s0 (s.take 104) = (s1, none) →
      Outcome a s0 s [.connected (s.take 104)] s1 (some .app)
  | connecting {s1 c w} : 104 ≤ s.length → ConnectOk (s.take 104) →
      a.connected s0 (s.take 104) = (s1, some (c, w)) →
      s.length < hsize (s.take 104) + dsize (s.take 104) → Outcome a s0 s [.connected (s.take 104)] s1 none
  | packets {s1 c w ps rest} (r : Rx σ) (st : Option Status) : 104 ≤ s.length → ConnectOk (s.take 104) →
      a.connected s0 (s.take 104) = (s1, some (c, w)) →
      hsize (s.take 104) + dsize (s.take 104) ≤ s.length →
      Splits (s.drop (hsize (s.take 104) + dsize (s.take 104))) ps rest →
      (r, st) = (Rx.start (s.take 104) s1 c w).stream a
        (⟨(s.take 104).take 16, (s.take (hsize (s.take 104) + dsize (s.take 104))).drop 104⟩ :: ps) rest →
      Outcome a s0 s r.log r.app st

/-- While the connect packet is being read, a piece does not go beyond it. -/
def Pieces (n : Nat) : List (Nat × List UInt8) → Prop
  | [] => True
  | (_, b) :: rest => b ≠ [] ∧ (n < 104 → n + b.length ≤ 104) ∧ Pieces (n + b.length) rest

/-! ## Lemmas: a whole connection -/

theorem packets_append {σ : Type} (a : App σ) : ∀ (ps ps2 : List Packet) (r : Rx σ), r.packets a (ps ++ ps2) =
    match r.packets a ps with
    | (r1, some st) => (r1, some st)
    | (r1, none) => r1.packets a ps2
  | [], _, _ => rfl
  | p :: ps, ps2, r => by
    rw [List.cons_append, Rx.packets, Rx.packets]
    match r.packet a p with
    | (r1, some st) => rfl
    | (r1, none) => exact packets_append a ps ps2 r1

theorem stream_append {σ : Type} {a : App σ} {r r1 : Rx σ} {ps : List Packet} {rest : List UInt8}
    (h : (r1, none) = r.stream a ps rest) (ps2 : List Packet) (rest2 : List UInt8) :
    r.stream a (ps ++ ps2) rest2 = r1.stream a ps2 rest2 ∧ ¬ Bad rest := by
  unfold Rx.stream at h ⊢
  rw [packets_append]
  match hp : r.packets a ps with
  | (r2, some st) =>
    rw [hp] at h
    cases h
  | (r2, none) =>
    rw [hp] at h
    dsimp only at h ⊢
    split at h
    · cases h
    · rename_i hb
      cases h
      exact ⟨rfl, hb⟩

theorem splits_more {u t : List UInt8} {ps ps2 : List Packet} {rest rest2 : List UInt8} (h : Splits u ps rest)
    (h2 : Splits (rest ++ t) ps2 rest2) : Splits (u ++ t) (ps ++ ps2) rest2 := by
  obtain ⟨e, hw, _⟩ := h
  obtain ⟨e2, hw2, hr2⟩ := h2
  refine ⟨?_, ?_, hr2⟩
  · rw [e, List.append_assoc, e2, List.flatMap_append, List.append_assoc]
  · intro p hp
    rcases List.mem_append.mp hp with hp | hp
    · exact hw p hp
    · exact hw2 p hp

theorem bad_append {s : List UInt8} (h : Bad s) (t : List UInt8) : Bad (s ++ t) := by
  have h1 := h.1
  refine ⟨by rw [List.length_append]; omega, ?_⟩
  rw [List.take_append_of_le_length h1]
  exact h.2

theorem stream_stop {σ : Type} {a : App σ} {r r1 : Rx σ} {st : Status} {q : Packet} {u t : List UInt8}
    {ps ps' : List Packet} {rest rest' : List UInt8} (hs : Splits u ps rest) (hs' : Splits (u ++ t) ps' rest')
    (h : (r1, some st) = r.stream a (q :: ps) rest) : (r1, some st) = r.stream a (q :: ps') rest' := by
  by_cases hb : Bad rest
  · have hs2 : Splits (u ++ t) ps (rest ++ t) := by
      refine ⟨by rw [hs.1, List.append_assoc], hs.2.1, Or.inl (bad_append hb t)⟩
    obtain ⟨rfl, rfl⟩ := splits_unique hs' hs2
    rw [h]
    unfold Rx.stream
    rw [if_pos hb, if_pos (bad_append hb t)]
  · obtain ⟨ps2, rest2, h2⟩ := splits_exists (rest ++ t)
    obtain ⟨rfl, rfl⟩ := splits_unique hs' (splits_more hs h2)
    unfold Rx.stream at h ⊢
    rw [← List.cons_append, packets_append]
    match hp : r.packets a (q :: ps) with
    | (r2, some st2) =>
      rw [hp] at h
      exact h
    | (r2, none) =>
      rw [hp] at h
      dsimp only at h
      rw [if_neg hb] at h
      cases h

/-- The connect packet, as the packets see it. -/
def firstPacket (s : List UInt8) : Packet :=
  ⟨(s.take 104).take 16, (s.take (hsize (s.take 104) + dsize (s.take 104))).drop 104⟩

theorem first_append {s : List UInt8} (h104 : 104 ≤ s.length)
    (h : hsize (s.take 104) + dsize (s.take 104) ≤ s.length) (t : List UInt8) :
    (s ++ t).take 104 = s.take 104 ∧ firstPacket (s ++ t) = firstPacket s ∧
    (s ++ t).drop (hsize (s.take 104) + dsize (s.take 104)) =
      s.drop (hsize (s.take 104) + dsize (s.take 104)) ++ t := by
  have e1 : (s ++ t).take 104 = s.take 104 := List.take_append_of_le_length h104
  refine ⟨e1, ?_, List.drop_append_of_le_length h⟩
  unfold firstPacket
  rw [e1, List.take_append_of_le_length h]

/-- The receiver has got the bytes `s` and the connection is still open. -/
def After {σ : Type} (a : App σ) (s0 : σ) (x : Ctx σ) (s : List UInt8) : Prop :=
  (s.length < 104 ∧ x = { create s0 with buf := s }) ∨
  (104 ≤ s.length ∧ ConnectOk (s.take 104) ∧ x.headerRead = true ∧
    ∃ s1 c w, a.connected s0 (s.take 104) = (s1, some (c, w)) ∧
    ((s.length < hsize (s.take 104) + dsize (s.take 104) ∧ rx x = Rx.start (s.take 104) s1 c w ∧ Reading x 104 ∧
        x.raw = (s.take 104).take 16 ∧ got x = s.drop 104 ∧ x.part = [] ∧ 0 < x.left) ∨
     (hsize (s.take 104) + dsize (s.take 104) ≤ s.length ∧ ∃ ps rest,
        Splits (s.drop (hsize (s.take 104) + dsize (s.take 104))) ps rest ∧
        (rx x, none) = (Rx.start (s.take 104) s1 c w).stream a (firstPacket s :: ps) rest ∧ Holds x rest)))

theorem after_outcome {σ : Type} {a : App σ} {s0 : σ} {x : Ctx σ} {s : List UInt8} (h : After a s0 x s) :
    Outcome a s0 s x.log x.app none := by
  rcases h with ⟨hl, rfl⟩ | ⟨hl, hok, -, s1, c, w, hc, ⟨h1, h2, -⟩ | ⟨h1, ps, rest, hs, hst, -⟩⟩
  · exact .opening hl
  · have e1 : x.log = (rx x).log := rfl
    have e2 : x.app = (rx x).app := rfl
    rw [e1, e2, h2]
    exact .connecting hl hok hc h1
  · exact .packets (rx x) none hl hok hc h1 hs hst

theorem field_take (l : List UInt8) {o n k : Nat} (h : o + n ≤ k) : field (l.take k) o n = field l o n := by
  unfold field
  rw [List.drop_take, List.take_take, Nat.min_eq_left (by omega)]

/-- What has been read stays a prefix when more is received. -/
theorem outcome_packets {σ : Type} {a : App σ} {s0 : σ} {s t : List UInt8} {s1 : σ} {c : Nat} {w : Bool}
    {ps : List Packet} {rest : List UInt8} {r : Rx σ} {st : Status} (h104 : 104 ≤ s.length)
    (hok : ConnectOk (s.take 104)) (hc : a.connected s0 (s.take 104) = (s1, some (c, w)))
    (hl : hsize (s.take 104) + dsize (s.take 104) ≤ s.length)
    (hs : Splits (s.drop (hsize (s.take 104) + dsize (s.take 104))) ps rest)
    (h : (r, some st) = (Rx.start (s.take 104) s1 c w).stream a (firstPacket s :: ps) rest) :
    Outcome a s0 (s ++ t) r.log r.app (some st) := by
  obtain ⟨e1, e2, e3⟩ := first_append h104 hl t
  obtain ⟨ps', rest', hs'⟩ := splits_exists (s.drop (hsize (s.take 104) + dsize (s.take 104)) ++ t)
  have h' := stream_stop hs hs' h
  have hlen : (s ++ t).length = s.length + t.length := List.length_append
  refine .packets (s1 := s1) (c := c) (w := w) (ps := ps') (rest := rest') r (some st) (by omega) ?_ ?_ ?_ ?_ ?_
  · rw [e1]; exact hok
  · rw [e1]; exact hc
  · rw [e1]; omega
  · rw [e1, e3]; exact hs'
  · have : (⟨((s ++ t).take 104).take 16,
        ((s ++ t).take (hsize ((s ++ t).take 104) + dsize ((s ++ t).take 104))).drop 104⟩ : Packet) = firstPacket s := e2
    rw [this, e1]
    exact h'

theorem receive_header {σ : Type} (a : App σ) (s0 : σ) (s b : List UInt8) (_hl : s.length < 104)
    (hb : s.length + b.length ≤ 104) :
    ∃ x' st, readHeader a { create s0 with buf := s } b = (x', st) ∧ (st = none → After a s0 x' (s ++ b)) ∧
      ∀ e, st = some e → ∀ t, Outcome a s0 (s ++ b ++ t) x'.log x'.app (some e) := by
  have hlen : (s ++ b).length = s.length + b.length := List.length_append
  unfold readHeader connectLen
  dsimp only
  by_cases h : (s ++ b).length < 104
  · rw [if_pos h]
    exact ⟨_, _, rfl, fun _ => Or.inl ⟨h, rfl⟩, fun e he => nomatch he⟩
  rw [if_neg h]
  have htk : ∀ t, (s ++ b ++ t).take 104 = s ++ b := fun t => by
    rw [List.take_append_of_le_length (by omega), List.take_of_length_le (by omega)]
  have htk0 : (s ++ b).take 104 = s ++ b := List.take_of_length_le (by omega)
  have hge : ∀ t, 104 ≤ (s ++ b ++ t).length := fun t => by rw [List.length_append]; omega
  have hbad : ¬ ConnectOk (s ++ b) → ∀ x : Ctx σ, x.log = [] → x.app = s0 →
      ∃ x' st, ((x, some Status.bad) : Ctx σ × Option Status) = (x', st) ∧ (st = none → After a s0 x' (s ++ b)) ∧
      ∀ e, st = some e → ∀ t, Outcome a s0 (s ++ b ++ t) x'.log x'.app (some e) := by
    intro hn x hx1 hx2
    refine ⟨x, some .bad, rfl, (fun he => nomatch he), fun e he t => ?_⟩
    cases he
    rw [hx1, hx2]
    exact .refused (hge t) (by rw [htk]; exact hn)
  by_cases h1 : ptype (s ++ b) ≠ tConnect
  · rw [if_pos h1]
    exact hbad (fun hc => h1 hc.1) _ rfl rfl
  rw [if_neg h1]
  by_cases h2 : hsize (s ++ b) < 104 ∨ hsize (s ++ b) > maxHeader
  · rw [if_pos h2]
    refine hbad (fun hc => ?_) _ rfl rfl
    have := hc.2.1
    have := hc.2.2.1
    unfold maxHeader at h2
    omega
  rw [if_neg h2]
  by_cases h3 : dsize (s ++ b) > maxData
  · rw [if_pos h3]
    refine hbad (fun hc => ?_) _ rfl rfl
    have := hc.2.2.2.1
    unfold maxData at h3
    omega
  rw [if_neg h3]
  by_cases h4 : field (s ++ b) 80 8 ≥ invalidFrame
  · rw [if_pos h4]
    refine hbad (fun hc => ?_) _ rfl rfl
    have := hc.2.2.2.2
    unfold invalidFrame at h4
    omega
  rw [if_neg h4]
  have hok : ConnectOk (s ++ b) := by
    unfold maxHeader at h2
    unfold maxData at h3
    unfold invalidFrame at h4
    refine ⟨Decidable.not_not.mp h1, by omega, by omega, by omega, by omega⟩
  match hc : a.connected (create s0).app (s ++ b) with
  | (s1, none) =>
    refine ⟨_, _, rfl, (fun he => nomatch he), fun e he t => ?_⟩
    cases he
    have := Outcome.rejected (a := a) (s0 := s0) (s := s ++ b ++ t) (s1 := s1) (hge t) (by rw [htk]; exact hok)
      (by rw [htk]; exact hc)
    rw [htk] at this
    exact this
  | (s1, some (c, w)) =>
    dsimp only
    have hptype : ptype ((s ++ b).take 16) = ptype (s ++ b) := field_take _ (by omega)
    have hhsize : hsize ((s ++ b).take 16) = hsize (s ++ b) := field_take _ (by omega)
    have hdsize : dsize ((s ++ b).take 16) = dsize (s ++ b) := field_take _ (by omega)
    obtain ⟨ok1, ok2, ok3, ok4, ok5⟩ := hok
    have hvalid : Valid ((s ++ b).take 16) := by
      refine ⟨?_, ?_, ?_, ?_⟩
      · rw [hptype, ok1]; exact List.mem_cons_self ..
      · rw [hhsize]; omega
      · rw [hhsize]; omega
      · rw [hdsize]; exact ok4
    have hok : ConnectOk (s ++ b) := ⟨ok1, ok2, ok3, ok4, ok5⟩
    have hdrop : (s ++ b).drop 104 = [] := List.drop_eq_nil_of_le (by omega)
    by_cases hz : hsize (s ++ b) + dsize (s ++ b) - 104 ≤ 0
    · rw [if_pos hz]
      generalize hy : Ctx.mk true (s ++ b) ((s ++ b).take hdrLen) [] (hsize (s ++ b) + dsize (s ++ b) - 104) [] c w
          false 0 0 0 0 0 [] [] s1 ((create s0).log ++ [Event.connected (s ++ b)]) = y
      have hy' : ({ create s0 with
          buf := s ++ b, app := s1, log := (create s0).log ++ [Event.connected (s ++ b)], part := [],
          left := hsize (s ++ b) + dsize (s ++ b) - 104, raw := (s ++ b).take hdrLen,
          skipLeft := c, skipWaitKey := w, headerRead := true } : Ctx σ) = y := hy
      rw [hy']
      have y1 : y.raw = (s ++ b).take 16 := by rw [← hy]; rfl
      have y2 : y.part = [] := by rw [← hy]
      have y3 : y.left = 0 := by rw [← hy]; dsimp only; omega
      have y4 : y.chain = [] := by rw [← hy]
      have y5 : { rx y with cur := field (s ++ b) 80 8 } = Rx.start (s ++ b) s1 c w := by rw [← hy]; rfl
      have y6 : y.headerRead = true := by rw [← hy]
      have y7 : got y = [] := by unfold got; rw [y4]; rfl
      have hcd := connectData_spec a y (by rw [y1, y7, hhsize]; simp only [List.length_nil]; omega) (by rw [y1, hptype, ok1])
      have hch : (connectData a y).1.chain = [] := by
        unfold connectData
        dsimp only
        generalize (if hsize y.raw > connectLen then skip (datas y.chain) (hsize y.raw - connectLen)
          else (true, datas y.chain)) = q
        split
        · exact y4
        · split <;> exact y4
      rw [y1, y7] at hcd
      have hfirst : ∀ t, firstPacket (s ++ b ++ t) = ⟨(s ++ b).take 16, []⟩ := fun t => by
        unfold firstPacket
        rw [htk, List.drop_eq_nil_of_le]
        rw [List.length_take]
        omega
      have hfirst0 : firstPacket (s ++ b) = ⟨(s ++ b).take 16, []⟩ := by
        have := hfirst []
        rwa [List.append_nil] at this
      have hpkt : (Rx.start (s ++ b) s1 c w).packet a ⟨(s ++ b).take 16, []⟩ =
          ({ rx (connectData a y).1 with cur := field (s ++ b) 80 8 }, (connectData a y).2) := by
        have h1 := congrArg Prod.fst hcd.1
        have h2 := congrArg Prod.snd hcd.1
        dsimp only at h1 h2
        rw [h1, h2, ← y5]
        have : ptype ((s ++ b).take 16) = tConnect := hptype.trans ok1
        unfold Rx.packet
        dsimp only
        rw [if_pos this, if_pos this]
        rfl
      have hempty : Splits [] [] [] := ⟨rfl, (fun _ h => nomatch h), Or.inr (Or.inl (by decide))⟩
      have hnil : (s ++ b).drop (hsize (s ++ b) + dsize (s ++ b)) = [] := List.drop_eq_nil_of_le (by omega)
      match hcr : connectData a y with
      | (x1, some st) =>
        refine ⟨_, _, rfl, (fun he => nomatch he), fun e he t => ?_⟩
        cases he
        rw [hcr] at hpkt
        have := outcome_packets (a := a) (s0 := s0) (s := s ++ b) (t := t) (s1 := s1) (c := c) (w := w) (ps := [])
          (rest := []) (r := { rx x1 with cur := field (s ++ b) 80 8 }) (st := st) (by omega)
          (by rw [htk0]; exact hok) (by rw [htk0]; exact hc) (by rw [htk0]; omega) (by rw [htk0, hnil]; exact hempty)
          (by
            rw [htk0, hfirst0]
            unfold Rx.stream Rx.packets
            rw [hpkt])
        exact this
      | (x1, none) =>
        refine ⟨_, _, rfl, (fun _ => ?_), fun e he => nomatch he⟩
        rw [hcr] at hpkt hcd hch
        obtain ⟨-, g1, g2, g3, g4, g5⟩ := hcd
        unfold After
        rw [htk0, hnil]
        refine Or.inr ⟨by omega, hok, ?_, s1, c, w, hc, Or.inr ⟨by omega, [], [], hempty, ?_, ?_⟩⟩
        · exact g1.trans y6
        · rw [hfirst0]
          unfold Rx.stream Rx.packets
          rw [hpkt]
          unfold Rx.packets
          dsimp only
          rw [if_neg (fun h => by have := h.1; simp only [List.length_nil] at this; omega)]
          rfl
        · refine Or.inl ⟨by decide, ?_, ?_, ?_⟩
          · exact g5.trans y3
          · exact hch
          · exact g4.trans y2
    · rw [if_neg hz]
      dsimp only
      refine ⟨_, _, rfl, (fun _ => ?_), fun e he => nomatch he⟩
      unfold After
      rw [htk0, hdrop]
      refine Or.inr ⟨by omega, hok, rfl, s1, c, w, hc, Or.inl ⟨by omega, rfl, ?_, rfl, rfl, rfl, ?_⟩⟩
      · refine ⟨hvalid, ?_, Or.inr ⟨rfl, ?_, ?_⟩⟩
        · show 104 + 0 + (hsize (s ++ b) + dsize (s ++ b) - 104) = hsize ((s ++ b).take 16) + dsize ((s ++ b).take 16)
          rw [hhsize, hdsize]
          omega
        · show ptype ((s ++ b).take 16) = tConnect
          rw [hptype, ok1]
        · show 104 ≤ hsize ((s ++ b).take 16)
          rw [hhsize]
          omega
      · show 0 < hsize (s ++ b) + dsize (s ++ b) - 104
        omega

theorem receive_packets {σ : Type} (a : App σ) (s0 : σ) (s b : List UInt8) (x : Ctx σ) (addr : Nat)
    (h104 : 104 ≤ s.length) (hb : b ≠ []) (h : After a s0 x s) :
    x.headerRead = true ∧
    ∃ x' st, process a (b.length + 1) x addr b = some (x', st) ∧ (st = none → After a s0 x' (s ++ b)) ∧
      ∀ e, st = some e → ∀ t, Outcome a s0 (s ++ b ++ t) x'.log x'.app (some e) := by
  have hlen : (s ++ b).length = s.length + b.length := List.length_append
  have etk : (s ++ b).take 104 = s.take 104 := List.take_append_of_le_length h104
  rcases h with ⟨hl, -⟩ | ⟨-, hok, hread, s1, c, w, hc, h⟩
  · omega
  refine ⟨hread, ?_⟩
  -- the end of both cases: packets behind the connect packet
  have fin : ∀ (ps : List Packet) (rest : List UInt8) (x' : Ctx σ) (st : Option Status),
      hsize (s.take 104) + dsize (s.take 104) ≤ (s ++ b).length →
      Splits ((s ++ b).drop (hsize (s.take 104) + dsize (s.take 104))) ps rest →
      (rx x', st) = (Rx.start (s.take 104) s1 c w).stream a (firstPacket (s ++ b) :: ps) rest →
      x'.headerRead = true → (st = none → Holds x' rest) →
      (st = none → After a s0 x' (s ++ b)) ∧
        ∀ e, st = some e → ∀ t, Outcome a s0 (s ++ b ++ t) x'.log x'.app (some e) := by
    intro ps rest x' st hle hs hst hr hh
    constructor
    · intro hn
      subst hn
      unfold After
      rw [etk]
      exact Or.inr ⟨by omega, hok, hr, s1, c, w, hc, Or.inr ⟨hle, ps, rest, hs, hst, hh rfl⟩⟩
    · intro e he t
      subst he
      have := outcome_packets (a := a) (s0 := s0) (s := s ++ b) (t := t) (s1 := s1) (c := c) (w := w) (ps := ps)
        (rest := rest) (r := rx x') (st := e) (by omega) (by rw [etk]; exact hok) (by rw [etk]; exact hc)
        (by rw [etk]; exact hle) (by rw [etk]; exact hs) (by rw [etk]; exact hst)
      exact this
  rcases h with ⟨hl, hrx, hR, hraw, hgot, hpart, hleft⟩ | ⟨hl, ps, rest, hs, hst, hh⟩
  · have hR' := hR
    obtain ⟨-, hsum, -⟩ := hR'
    have hh1 : hsize x.raw = hsize (s.take 104) := by rw [hraw]; exact field_take _ (by omega)
    have hd1 : dsize x.raw = dsize (s.take 104) := by rw [hraw]; exact field_take _ (by omega)
    rw [hh1, hd1, hgot, List.length_drop] at hsum
    rcases process_reading a (b.length + 1) b x addr (by omega) hb hleft hpart hR with
      ⟨hlt, x', e, z1, z2, z3, z4, z5, z6⟩ | ⟨hge, hall⟩
    · refine ⟨x', none, e, (fun _ => ?_), fun e he => nomatch he⟩
      unfold After
      rw [etk]
      refine Or.inr ⟨by omega, hok, z6.trans hread, s1, c, w, hc, Or.inl ⟨by omega, z1.trans hrx, ?_, z4.trans hraw,
        ?_, z5, by omega⟩⟩
      · obtain ⟨r1, r2, r3⟩ := hR
        refine ⟨by rw [z4]; exact r1, ?_, by rw [z4]; exact r3⟩
        rw [z2, z3, z4, List.length_append]
        omega
      · rw [z2, hgot, List.drop_append_of_le_length h104]
    · obtain ⟨ps, rest, hs⟩ := splits_exists (b.drop x.left)
      obtain ⟨x', st, e, hst, hr, hh⟩ := hall ps rest hs
      refine ⟨x', st, e, fin ps rest x' st (by omega) ?_ ?_ (hr.trans hread) hh⟩
      · have : (s ++ b).drop (hsize (s.take 104) + dsize (s.take 104)) = b.drop x.left := by
          rw [List.drop_append, List.drop_eq_nil_of_le (by omega), List.nil_append]
          congr 1
          omega
        rw [this]
        exact hs
      · have : firstPacket (s ++ b) = ⟨x.raw, got x ++ b.take x.left⟩ := by
          unfold firstPacket
          rw [etk, hraw, hgot]
          congr 1
          rw [List.take_append, List.take_of_length_le (show s.length ≤ _ by omega),
            List.drop_append_of_le_length h104]
          congr 2
          omega
        rw [this, ← hrx]
        exact hst
  · have hfp : firstPacket (s ++ b) = firstPacket s := (first_append h104 hl b).2.1
    have hdr := (first_append h104 hl b).2.2
    -- packets out of the rest with the new bytes
    have more : ∀ (ps2 : List Packet) (rest2 : List UInt8), Splits (rest ++ b) ps2 rest2 →
        ∀ (x' : Ctx σ) (st : Option Status), (rx x', st) = (rx x).stream a ps2 rest2 → x'.headerRead = true →
        (st = none → Holds x' rest2) →
        (st = none → After a s0 x' (s ++ b)) ∧
          ∀ e, st = some e → ∀ t, Outcome a s0 (s ++ b ++ t) x'.log x'.app (some e) := by
      intro ps2 rest2 hs2 x' st hst2 hr hh2
      refine fin (ps ++ ps2) rest2 x' st (by omega) ?_ ?_ hr hh2
      · rw [hdr]
        exact splits_more hs hs2
      · rw [hfp, ← List.cons_append, (stream_append hst ps2 rest2).1]
        exact hst2
    rcases hh with ⟨k1, k2, k3, k4⟩ | ⟨k1, k2, k3, k4, k5, k6⟩
    · obtain ⟨ps2, rest2, hs2⟩ := splits_exists (rest ++ b)
      obtain ⟨x', st, e, hst2, hr, hh2⟩ := process_idle a (b.length + 1) b x addr (by omega) k2 k3 (by rw [k4]; exact k1)
        ps2 rest2 (by rw [k4]; exact hs2)
      exact ⟨x', st, e, more ps2 rest2 hs2 x' st hst2 (hr.trans hread) hh2⟩
    · have k6' := k6
      obtain ⟨v1, v2, v3⟩ := k6'
      have hrl : (rest ++ b).length = rest.length + b.length := List.length_append
      have hrt : (rest ++ b).take 16 = rest.take 16 := List.take_append_of_le_length k1
      rw [k3, List.length_drop, k2] at v2
      rw [k2] at v1
      rcases process_reading a (b.length + 1) b x addr (by omega) hb k5 k4 k6 with
        ⟨hlt, x', e, z1, z2, z3, z4, z5, z6⟩ | ⟨hge, hall⟩
      · have hun : Unfinished (rest ++ b) := Or.inr ⟨by rw [hrt]; exact v1, by rw [hrt]; omega⟩
        refine ⟨x', none, e, more [] (rest ++ b) ⟨rfl, (fun _ h => nomatch h), Or.inr hun⟩ x' none ?_ (z6.trans hread) ?_⟩
        · unfold Rx.stream Rx.packets
          dsimp only
          rw [if_neg (fun h : Bad (rest ++ b) => h.2 (by rw [hrt]; exact v1)), z1]
        · intro _
          refine Or.inr ⟨by omega, by rw [z4, hrt]; exact k2, ?_, z5, by omega, ?_⟩
          · rw [z2, k3, List.drop_append_of_le_length k1]
          · obtain ⟨r1, r2, r3⟩ := k6
            refine ⟨by rw [z4]; exact r1, ?_, by rw [z4]; exact r3⟩
            rw [z2, z3, z4, List.length_append]
            omega
      · obtain ⟨ps2, rest2, hs2⟩ := splits_exists (b.drop x.left)
        obtain ⟨x', st, e, hst2, hr, hh2⟩ := hall ps2 rest2 hs2
        have hw : Whole ⟨x.raw, got x ++ b.take x.left⟩ := by
          refine ⟨?_, by rw [k2]; exact v1, ?_⟩
          · dsimp only
            rw [k2, List.length_take]; omega
          · dsimp only
            rw [k2, k3, List.length_append, List.length_take, List.length_take, List.length_drop]
            omega
        refine ⟨x', st, e, more (⟨x.raw, got x ++ b.take x.left⟩ :: ps2) rest2 ⟨?_, ?_, hs2.2.2⟩ x' st hst2
          (hr.trans hread) hh2⟩
        · rw [List.flatMap_cons, List.append_assoc, ← hs2.1, k2, k3]
          conv => lhs; rw [← List.take_append_drop 16 rest, ← List.take_append_drop x.left b]
          simp only [List.append_assoc]
        · intro p hp
          rcases List.mem_cons.mp hp with rfl | hp
          · exact hw
          · exact hs2.2.1 p hp

theorem run_after {σ : Type} (a : App σ) (s0 : σ) : ∀ (pieces : List (Nat × List UInt8)) (x : Ctx σ) (s : List UInt8),
    After a s0 x s → Pieces s.length pieces →
    ∃ x' st, run a x pieces = some (x', st) ∧ Outcome a s0 (s ++ pieces.flatMap (·.2)) x'.log x'.app st
  | [], x, s, h, _ => ⟨x, none, rfl, by rw [List.flatMap_nil, List.append_nil]; exact after_outcome h⟩
  | (addr, b) :: rest, x, s, h, hp => by
    obtain ⟨hb, hfit, hrest⟩ := hp
    have key : ∃ x' st, receive a x addr b = some (x', st) ∧ (st = none → After a s0 x' (s ++ b)) ∧
        ∀ e, st = some e → ∀ t, Outcome a s0 (s ++ b ++ t) x'.log x'.app (some e) := by
      unfold receive
      by_cases h104 : s.length < 104
      · rcases h with ⟨-, rfl⟩ | ⟨h1, -⟩
        · rw [if_pos (fun h => nomatch h)]
          obtain ⟨x', st, e, h⟩ := receive_header a s0 s b h104 (hfit h104)
          exact ⟨x', st, by rw [e], h⟩
        · omega
      · obtain ⟨hr, x', st, e, h⟩ := receive_packets a s0 s b x addr (by omega) hb h
        rw [if_neg (not_not_intro hr)]
        exact ⟨x', st, e, h⟩
    obtain ⟨x', st, e, h1, h2⟩ := key
    unfold run
    rw [e, Option.bind_some, List.flatMap_cons, ← List.append_assoc]
    cases st with
    | some st => exact ⟨x', some st, rfl, h2 st rfl _⟩
    | none => exact run_after a s0 rest x' (s ++ b) (h1 rfl) (by rw [List.length_append]; exact hrest)

/-! ## C17 -/

theorem outcome_unique {σ : Type} {a : App σ} {s0 : σ} {s : List UInt8} {l l' : List Event} {p p' : σ}
    {st st' : Option Status} (h : Outcome a s0 s l p st) (h' : Outcome a s0 s l' p' st') :
    l = l' ∧ p = p' ∧ st = st' := by
  cases h with
  | opening h1 => cases h' <;> first | exact ⟨rfl, rfl, rfl⟩ | omega
  | refused h1 h2 =>
    cases h' <;> first | exact ⟨rfl, rfl, rfl⟩ | omega | (rename_i g _; exact absurd g h2) |
      (rename_i g _ _; exact absurd g h2) | (rename_i g _ _ _ _; exact absurd g h2)
  | rejected h1 h2 h3 =>
    cases h' with
    | opening g1 => omega
    | refused g1 g2 => exact absurd h2 g2
    | rejected g1 g2 g3 => rw [h3] at g3; cases g3; exact ⟨rfl, rfl, rfl⟩
    | connecting g1 g2 g3 => rw [h3] at g3; cases g3
    | packets _ _ g1 g2 g3 => rw [h3] at g3; cases g3
  | connecting h1 h2 h3 h4 =>
    cases h' with
    | opening g1 => omega
    | refused g1 g2 => exact absurd h2 g2
    | rejected g1 g2 g3 => rw [h3] at g3; cases g3
    | connecting g1 g2 g3 => rw [h3] at g3; cases g3; exact ⟨rfl, rfl, rfl⟩
    | packets _ _ g1 g2 g3 g4 => omega
  | packets r st h1 h2 h3 h4 h5 h6 =>
    cases h' with
    | opening g1 => omega
    | refused g1 g2 => exact absurd h2 g2
    | rejected g1 g2 g3 => rw [h3] at g3; cases g3
    | connecting g1 g2 g3 g4 => omega
    | packets r' st' g1 g2 g3 g4 g5 g6 =>
      rw [h3] at g3
      cases g3
      obtain ⟨rfl, rfl⟩ := splits_unique h5 g5
      rw [← h6] at g6
      cases g6
      exact ⟨rfl, rfl, rfl⟩

/-- C17: however a stream of bytes is cut into pieces, what the application sees, the state it is left in
and how the connection ends are what the bytes say: a connect packet, then one packet after the other. The
receiver always comes to an end. -/
theorem run_outcome {σ : Type} (a : App σ) (s0 : σ) (pieces : List (Nat × List UInt8)) (h : Pieces 0 pieces) :
    ∃ x st, run a (create s0) pieces = some (x, st) ∧ Outcome a s0 (pieces.flatMap (·.2)) x.log x.app st := by
  have := run_after a s0 pieces (create s0) [] (Or.inl ⟨by decide, rfl⟩) h
  rwa [List.nil_append] at this

/-- C17: two ways of cutting the same bytes give the same. -/
theorem run_chunks {σ : Type} (a : App σ) (s0 : σ) (p q : List (Nat × List UInt8)) (hp : Pieces 0 p)
    (hq : Pieces 0 q) (h : p.flatMap (·.2) = q.flatMap (·.2)) :
    ∃ x y st, run a (create s0) p = some (x, st) ∧ run a (create s0) q = some (y, st) ∧
      x.log = y.log ∧ x.app = y.app := by
  obtain ⟨x, st, e, o⟩ := run_outcome a s0 p hp
  obtain ⟨y, st', e', o'⟩ := run_outcome a s0 q hq
  rw [h] at o
  obtain ⟨h1, h2, rfl⟩ := outcome_unique o o'
  exact ⟨x, y, st, e, e', h1, h2⟩

end Verif.KmpIn
