import Verif.RtmpSpec

/-!
# RTMP: a message is divided into chunks

Model of `ngx_rtmp_prepare_message`, nginx-rtmp-module/src/ngx_rtmp_handler.c 666-811. A buffer is the number of bytes in front of the data
(`pos - start`) and the data (`pos` to `last`).

Simplified: debug output; the session that is closed when the chunk stream is not allowed is the outcome `err`.
-/

namespace Verif.RtmpSend

abbrev Bytes := List UInt8

/-- `ngx_rtmp_header_t`, ngx_rtmp.h 170-176. -/
structure Hdr where
  csid : Nat
  ts : Nat
  type : Nat
  msid : Nat
  mlen : Nat := 0
deriving DecidableEq, Repr

/-- A buffer of a chain. -/
structure Buf where
  front : Nat
  data : Bytes
deriving DecidableEq, Repr

/-- `fmt` and `timestamp`, lines 699-713. -/
def format (h : Hdr) (lh : Option Hdr) (mlen : Nat) : Nat × Nat :=
  match lh with
  | none => (0, h.ts)
  | some l =>
    if l.csid ≠ 0 ∧ h.msid = l.msid then
      (if h.type = l.type ∧ mlen ≠ 0 ∧ mlen = l.mlen then if h.ts = l.ts then 3 else 2 else 1, (h.ts + 2 ^ 32 - l.ts) % 2 ^ 32)
    else (0, h.ts)

/-- `hdrsize`, line 674. -/
def hdrSize (fmt : Nat) : Nat := if fmt = 0 then 12 else if fmt = 1 then 8 else if fmt = 2 then 4 else 1

/-- The bytes in front of the data that are used, lines 720-740. -/
def headSize (fmt ts csid : Nat) : Nat :=
  hdrSize fmt + (if 0xffffff ≤ ts then 4 else 0) + (if 64 ≤ csid then if 320 ≤ csid then 2 else 1 else 0)

/-- The basic header, lines 746-759. -/
def basic (fmt csid : Nat) : Bytes :=
  if 2 ≤ csid ∧ csid ≤ 63 then [UInt8.ofNat (fmt <<< 6 ||| (csid % 256) &&& 0x3f)]
  else if 64 ≤ csid ∧ csid < 320 then [UInt8.ofNat (fmt <<< 6), UInt8.ofNat (csid - 64)]
  else [UInt8.ofNat (fmt <<< 6 ||| 1), UInt8.ofNat (csid + 2 ^ 32 - 64), UInt8.ofNat ((csid + 2 ^ 32 - 64) >>> 8)]

/-- The bytes `pp[2]`, `pp[1]`, `pp[0]` of a `uint32_t`. -/
def low24 (n : Nat) : Bytes := [UInt8.ofNat (n >>> 16), UInt8.ofNat (n >>> 8), UInt8.ofNat n]

/-- The bytes `pp[3]`, `pp[2]`, `pp[1]`, `pp[0]` of a `uint32_t`. -/
def big32 (n : Nat) : Bytes := UInt8.ofNat (n >>> 24) :: low24 n

/-- The message header, lines 766-786: `ts` is already cut. -/
def header (fmt ts mlen : Nat) (h : Hdr) : Bytes :=
  if fmt ≤ 2 then
    low24 ts ++ if fmt ≤ 1 then
      low24 mlen ++ [UInt8.ofNat h.type] ++ if fmt = 0 then
        [UInt8.ofNat h.msid, UInt8.ofNat (h.msid >>> 8), UInt8.ofNat (h.msid >>> 16), UInt8.ofNat (h.msid >>> 24)]
      else []
    else []
  else []

/-- `th[0] |= 0xc0`, lines 761-764. -/
def again : Bytes → Bytes
  | [] => []
  | b :: bs => (b ||| 0xc0) :: bs

/-- `buf->pos -= n` and the header `hd` is copied to `pos`; what it is longer than `n` overwrites the data. -/
def prepend (n : Nat) (hd : Bytes) (b : Buf) : Res Buf :=
  if n ≤ b.front then .ok ⟨b.front - n, hd ++ b.data.drop (hd.length - n)⟩ else .ub

/-- The loop over the other buffers, lines 806-810. -/
def others (th : Bytes) : List Buf → Res (List Buf)
  | [] => .ok []
  | b :: bs => match prepend th.length th b with
    | .ok b' => (others th bs).map (b' :: ·)
    | .err => .err
    | .ub => .ub

/-- `ngx_rtmp_prepare_message`. `fix` is `play_time_fix`. The array `th` has 7 bytes. -/
def prepare (fix : Bool) (maxStreams : Nat) (h : Hdr) (lh : Option Hdr) (out : List Buf) : Res (List Buf) :=
  if maxStreams ≤ h.csid then .err
  else
    match out with
    | [] => .ub
    | b :: bs =>
      let mlen := ((b :: bs).map (·.data.length)).sum % 2 ^ 32
      let f := format h lh mlen
      let ext := 0xffffff ≤ f.2
      let ba := basic f.1 h.csid
      let hd := ba ++ header f.1 (if ext then 0xffffff else f.2) mlen h ++ if ext then big32 f.2 else []
      let th := again ba ++ if ext ∧ fix = true then big32 f.2 else []
      if 7 < th.length then .ub
      else match prepend (headSize f.1 f.2 h.csid) hd b with
        | .ok b' => (others th bs).map (b' :: ·)
        | .err => .err
        | .ub => .ub

end Verif.RtmpSend

namespace Verif.RtmpSpec

/-- Some chunks, one after the other. -/
inductive SendsAll (F : List Mess → Option (List Nat)) (T : Terms) (maxId maxLen : Nat) : Sender → List UInt8 → Sender → Prop where
  | done (S : Sender) : SendsAll F T maxId maxLen S [] S
  | more {S S1 S2 : Sender} {x y : List UInt8} : Sends F T maxId maxLen S x S1 → SendsAll F T maxId maxLen S1 y S2 → SendsAll F T maxId maxLen S (x ++ y) S2

theorem Stream.sendsAll {F : List Mess → Option (List Nat)} {T : Terms} {maxId maxLen : Nat} {S S' : Sender} {y : List UInt8}
    (h : SendsAll F T maxId maxLen S y S') : ∀ {bs : List UInt8}, Stream F T maxId maxLen bs S → Stream F T maxId maxLen (bs ++ y) S' := by
  induction h with
  | done S => intro bs hs; simpa using hs
  | more h1 _ ih =>
    intro bs hs
    rw [← List.append_assoc]
    exact ih (.chunk hs h1)

end Verif.RtmpSpec

namespace Verif.RtmpSend

open Verif.RtmpSpec

theorem low24_be24 (n : Nat) : low24 n = RtmpSpec.be24 n := by
  simp [low24, RtmpSpec.be24, Nat.shiftRight_eq_div_pow]

theorem big32_be32 (n : Nat) : big32 n = RtmpSpec.be32 n := by
  simp [big32, low24, RtmpSpec.be32, Nat.shiftRight_eq_div_pow]

theorem or6 {fmt x : Nat} (hx : x < 64) : fmt <<< 6 ||| x = fmt * 64 + x := by
  rw [← Nat.shiftLeft_add_eq_or_of_lt (by simpa using hx), Nat.shiftLeft_eq]

theorem low_byte {a b : Nat} (h : a % 256 = b % 256) : UInt8.ofNat a = UInt8.ofNat b := by
  apply UInt8.toNat_inj.mp
  simp [h]

theorem basic_ok {fmt csid : Nat} (h2 : 2 ≤ csid) (h3 : csid ≤ 65599) : Basic fmt csid (basic fmt csid) := by
  unfold basic
  split
  · rename_i h
    have e : (csid % 256) &&& 0x3f = csid := by
      rw [show (0x3f : Nat) = 2 ^ 6 - 1 from rfl, Nat.and_two_pow_sub_one_eq_mod]
      omega
    rw [e, or6 (by omega)]
    exact .one _ h.1 h.2
  · split
    · rename_i h
      rw [show fmt <<< 6 = fmt * 64 from Nat.shiftLeft_eq _ _]
      exact .two _ h.1 (by omega)
    · rw [or6 (by omega)]
      have e1 : UInt8.ofNat (csid + 2 ^ 32 - 64) = UInt8.ofNat ((csid - 64) % 256) := low_byte (by omega)
      have e2 : UInt8.ofNat ((csid + 2 ^ 32 - 64) >>> 8) = UInt8.ofNat ((csid - 64) / 256) := by
        rw [Nat.shiftRight_eq_div_pow]
        exact low_byte (by omega)
      rw [e1, e2]
      exact .three _ (by omega) h3

theorem basic_len {fmt csid : Nat} (h2 : 2 ≤ csid) : (basic fmt csid).length = 1 + (if 64 ≤ csid then if 320 ≤ csid then 2 else 1 else 0) := by
  unfold basic
  repeat' split
  all_goals first | rfl | omega

theorem or_c0 : ∀ fmt < 4, ∀ x < 64, (UInt8.ofNat (fmt * 64 + x) ||| 0xc0) = UInt8.ofNat (3 * 64 + x) := by decide

theorem again_basic {fmt csid : Nat} (hf : fmt ≤ 3) : again (basic fmt csid) = basic 3 csid := by
  unfold basic
  have hm : (csid % 256) &&& 0x3f < 64 := by
    rw [show (0x3f : Nat) = 2 ^ 6 - 1 from rfl, Nat.and_two_pow_sub_one_eq_mod]
    omega
  split
  · simp only [again]
    rw [or6 hm, or6 hm, or_c0 fmt (by omega) _ hm]
  · split
    · simp only [again]
      have := or_c0 fmt (by omega) 0 (by omega)
      simp only [Nat.add_zero] at this
      rw [show fmt <<< 6 = fmt * 64 from Nat.shiftLeft_eq _ _, this]
      rfl
    · simp only [again]
      rw [or6 (by omega), or6 (by omega), or_c0 fmt (by omega) 1 (by omega)]

theorem basic_pos {fmt csid : Nat} : (basic fmt csid) ≠ [] := by
  unfold basic
  split
  · simp
  · split <;> simp

theorem low24_len (n : Nat) : (low24 n).length = 3 := rfl

theorem header_len {fmt : Nat} (hf : fmt ≤ 3) (ts mlen : Nat) (h : Hdr) : 1 + (header fmt ts mlen h).length = hdrSize fmt := by
  obtain rfl | rfl | rfl | rfl : fmt = 0 ∨ fmt = 1 ∨ fmt = 2 ∨ fmt = 3 := by omega
  all_goals simp [header, hdrSize, low24]

/-- The payload of a chain. -/
def payload (out : List Buf) : Bytes := (out.map (·.data)).flatten

/-- The bytes of a chain. -/
abbrev bytes (out : List Buf) : Bytes := payload out

/-- The pieces of a message of `size` bytes each; only the last one can be smaller, and it is not empty unless it is the only one. -/
def Pieces (size : Nat) : List Buf → Prop
  | [] => False
  | [b] => b.data.length ≤ size
  | b :: c :: bs => b.data.length = size ∧ Pieces size (c :: bs) ∧ payload (c :: bs) ≠ []

theorem others_ok {th : Bytes} : ∀ {bs : List Buf}, (∀ b ∈ bs, th.length ≤ b.front) →
    others th bs = .ok (bs.map fun b => ⟨b.front - th.length, th ++ b.data⟩) := by
  intro bs
  induction bs with
  | nil => intro _; rfl
  | cons b bs ih =>
    intro h
    simp only [others, prepend]
    rw [if_pos (h b (by simp))]
    simp only []
    rw [ih (fun b hb => h b (by simp [hb]))]
    simp

variable {F : List Mess → Option (List Nat)} {T : Terms} {maxId maxLen : Nat}

/-- After the last chunk of a message. -/
structure Sent (S : Sender) (c : Nat) (p : Prev) (m : Mess) (sizes : List Nat) (S' : Sender) : Prop where
  sent : S'.sent = S.sent ++ [m]
  lane : S'.lanes c = ⟨some p, none⟩
  other : ∀ d, d ≠ c → S'.lanes d = S.lanes d
  size : S'.size = sizes.getLast?.getD S.size
  last : S'.last = S.last

theorem finish_last {S : Sender} {c : Nat} {p : Prev} {m : Mess} {sizes : List Nat} (hF : F (S.sent ++ [m]) = some sizes)
    (hs : ∀ n ∈ sizes, 1 ≤ n ∧ n ≤ 10485760) : ∃ S', Finish F S c p m [] S' ∧ Sent S c p m sizes S' := by
  refine ⟨{ S.put c ⟨some p, none⟩ with sent := S.sent ++ [m], size := sizes.getLast?.getD S.size }, ?_, ?_⟩
  · unfold Finish
    rw [if_pos rfl]
    exact ⟨sizes, hF, hs, rfl⟩
  · refine ⟨rfl, by simp [Sender.put], fun d hd => by simp [Sender.put, hd], rfl, rfl⟩

/-- The other chunks. -/
theorem others_sends (c : Nat) (p : Prev) (m : Mess) (sizes : List Nat) (ba : Bytes) (hba : Basic 3 c ba) (hs : ∀ n ∈ sizes, 1 ≤ n ∧ n ≤ 10485760) :
    ∀ (bs : List Buf) (S : Sender), Pieces S.size bs → payload bs ≠ [] → (S.lanes c) = ⟨some p, some (m, payload bs)⟩ → S.last = p.field →
      F (S.sent ++ [m]) = some sizes →
      ∃ S', SendsAll F T maxId maxLen S ((bs.map fun b => ba ++ extTs T 3 p.field ++ b.data).flatten) S' ∧ Sent S c p m sizes S' := by
  intro bs
  induction bs with
  | nil => intro S h; exact h.elim
  | cons b bs ih =>
    intro S hp hne hl hlast hF
    cases bs with
    | nil =>
      have hb : b.data.length ≤ S.size := hp
      have hpl : payload [b] = b.data := by simp [payload]
      rw [hpl] at hl
      obtain ⟨S', h1, h2⟩ := finish_last (F := F) (S := S) (c := c) (p := p) hF hs
      refine ⟨S', ?_, h2⟩
      have := Sends.next (F := F) (T := T) (maxId := maxId) (maxLen := maxLen) (S := S) (S' := S') c ba m b.data p (by rw [hl]) (by rw [hl]) hba
        (fun _ _ => hlast) (by rw [List.drop_eq_nil_of_le hb]; exact h1)
      rw [List.take_of_length_le hb] at this
      simpa using SendsAll.more this (.done S')
    | cons b2 bs =>
      obtain ⟨hb, hp2, hne2⟩ := hp
      have hpl : payload (b :: b2 :: bs) = b.data ++ payload (b2 :: bs) := by simp [payload]
      rw [hpl] at hl
      have hdrop : (b.data ++ payload (b2 :: bs)).drop S.size = payload (b2 :: bs) := by
        rw [← hb]; simp
      have htake : (b.data ++ payload (b2 :: bs)).take S.size = b.data := by
        rw [← hb]; simp
      have hfin : Finish F S c p m ((b.data ++ payload (b2 :: bs)).drop S.size) (S.put c ⟨some p, some (m, payload (b2 :: bs))⟩) := by
        unfold Finish
        rw [hdrop, if_neg hne2]
      have h1 := Sends.next (F := F) (T := T) (maxId := maxId) (maxLen := maxLen) (S := S) c ba m _ p (by rw [hl]) (by rw [hl]) hba
        (fun _ _ => hlast) hfin
      rw [htake] at h1
      obtain ⟨S', h2, h3⟩ := ih (S.put c ⟨some p, some (m, payload (b2 :: bs))⟩) hp2 hne2 (by simp [Sender.put]) hlast hF
      refine ⟨S', ?_, ?_⟩
      · have := SendsAll.more h1 h2
        simpa using this
      · exact ⟨h3.sent, h3.lane, fun d hd => by rw [h3.other d hd]; simp [Sender.put, hd], h3.size, h3.last⟩

/-- The last header for a chunk stream that the caller passes agrees with what was sent, if it is used at all. -/
def Knows (h : Hdr) (lh : Option Hdr) (mlen : Nat) (zero : Bool) (prev : Option Prev) : Prop :=
  ∀ l, lh = some l → l.csid ≠ 0 → h.msid = l.msid → ∃ p, prev = some p ∧ p.msid = l.msid ∧ p.ts = l.ts ∧ l.ts < 2 ^ 32 ∧
    (h.type = l.type → mlen = l.mlen → p.type = l.type ∧ p.len = l.mlen ∧ (h.ts = l.ts → p.field = 0 ∧ (zero = true ∨ p.abs = false)))

theorem format_fits {h : Hdr} {lh : Option Hdr} {T : Terms} {m : Mess} {prev : Option Prev} (hts : m.ts = h.ts) (hmsid : m.msid = h.msid) (htype : m.type = h.type)
    (hts' : h.ts < 2 ^ 32) (hk : Knows h lh m.payload.length T.zero prev) :
    Fits T (format h lh m.payload.length).1 (format h lh m.payload.length).2 m prev ∧ (format h lh m.payload.length).1 ≤ 3 ∧
      (format h lh m.payload.length).2 < 2 ^ 32 ∧ ((format h lh m.payload.length).1 = 3 → (format h lh m.payload.length).2 = 0) := by
  have hz : Fits T 0 h.ts m prev := by
    cases prev with
    | none => exact ⟨rfl, hts.symm⟩
    | some p => exact .inl ⟨rfl, hts.symm⟩
  unfold format
  cases lh with
  | none => exact ⟨hz, by simp, hts', by simp⟩
  | some l =>
    simp only []
    split
    · rename_i hl
      obtain ⟨p, hp, h1, h2, h3, h4⟩ := hk l rfl hl.1 hl.2
      subst hp
      have hlt : (h.ts + 2 ^ 32 - l.ts) % 2 ^ 32 < 2 ^ 32 := Nat.mod_lt _ (by omega)
      have hsum : m.ts = (p.ts + (h.ts + 2 ^ 32 - l.ts) % 2 ^ 32) % 2 ^ 32 := by omega
      by_cases hc : h.type = l.type ∧ m.payload.length ≠ 0 ∧ m.payload.length = l.mlen
      · obtain ⟨q1, q2, q3⟩ := h4 hc.1 hc.2.2
        rw [if_pos hc]
        by_cases ht : h.ts = l.ts
        · rw [if_pos ht]
          have h0 : (h.ts + 2 ^ 32 - l.ts) % 2 ^ 32 = 0 := by omega
          refine ⟨.inr ⟨by omega, by omega, by omega, hsum, fun _ => ⟨by omega, by omega⟩, fun _ => ⟨?_, (q3 ht).2⟩⟩, by omega, hlt, fun _ => h0⟩
          show (h.ts + 2 ^ 32 - l.ts) % 2 ^ 32 = p.field
          rw [h0, (q3 ht).1]
        · rw [if_neg ht]
          exact ⟨.inr ⟨by omega, by omega, by omega, hsum, fun _ => ⟨by omega, by omega⟩, fun h => by simp at h⟩, by omega, hlt, fun h => by simp at h⟩
      · rw [if_neg hc]
        exact ⟨.inr ⟨by omega, by omega, by omega, hsum, fun h => by simp at h, fun h => by simp at h⟩, by omega, hlt, fun h => by simp at h⟩
    · exact ⟨hz, by omega, hts', by simp⟩

theorem header_mhdr {fmt field : Nat} (hf : fmt ≤ 3) {m : Mess} {h : Hdr} (hmsid : m.msid = h.msid) (htype : m.type = h.type) :
    header fmt (if 0xffffff ≤ field then 0xffffff else field) m.payload.length h = mhdr fmt field m := by
  have e : (if 0xffffff ≤ field then 0xffffff else field) = min field big := by
    unfold big
    split <;> omega
  rw [e]
  obtain rfl | rfl | rfl | rfl : fmt = 0 ∨ fmt = 1 ∨ fmt = 2 ∨ fmt = 3 := by omega
  all_goals simp [header, mhdr, low24_be24, htype, RtmpSpec.be32, hmsid, Nat.shiftRight_eq_div_pow]

/-- **C72.** The buffers of a message, with the room for headers that they are allocated with, become chunks that a receiver puts together to this
message: they are what the specification allows a sender to write next, whatever it has sent before on this and on other chunk streams.
Nothing is written in front of a buffer, and the data are not overwritten. -/
theorem messages_are_sent_in_chunks (fix : Bool) (maxStreams maxLen : Nat) (h : Hdr) (lh : Option Hdr) (out : List Buf) (F : List Mess → Option (List Nat)) (T : Terms)
    (S : Sender) (sizes : List Nat) (hid : 2 ≤ h.csid ∧ h.csid ≤ 65599 ∧ h.csid < maxStreams) (hts : h.ts < 2 ^ 32) (hty : h.type < 256) (hms : h.msid < 2 ^ 32)
    (hlen : (payload out).length < 2 ^ 24 ∧ (payload out).length ≤ maxLen) (hfront : ∀ b ∈ out, b.front = 18) (hpieces : Pieces S.size out)
    (hcur : (S.lanes h.csid).cur = none) (hk : Knows h lh (payload out).length T.zero (S.lanes h.csid).prev) (hrep : T.rep = fix) (hext : T.ext = true)
    (hF : F (S.sent ++ [⟨h.csid, h.ts, h.type, h.msid, payload out⟩]) = some sizes) (hs : ∀ n ∈ sizes, 1 ≤ n ∧ n ≤ 10485760) :
    ∃ out' S', prepare fix maxStreams h lh out = .ok out' ∧ SendsAll F T maxStreams maxLen S (bytes out') S' ∧
      S'.sent = S.sent ++ [⟨h.csid, h.ts, h.type, h.msid, payload out⟩] ∧
      S'.lanes h.csid = ⟨some ⟨h.ts, (payload out).length, h.type, h.msid, (format h lh (payload out).length).2, (format h lh (payload out).length).1 == 0⟩, none⟩ ∧
      (∀ d, d ≠ h.csid → S'.lanes d = S.lanes d) ∧ S'.size = sizes.getLast?.getD S.size := by
  obtain ⟨m, hm⟩ : ∃ m : Mess, m = ⟨h.csid, h.ts, h.type, h.msid, payload out⟩ := ⟨_, rfl⟩
  have hmp : m.payload = payload out := by rw [hm]
  cases out with
  | nil => exact hpieces.elim
  | cons b bs =>
    have hmlen : ((b :: bs).map (·.data.length)).sum % 2 ^ 32 = m.payload.length := by
      have : ((b :: bs).map (·.data.length)).sum = (payload (b :: bs)).length := by
        simp only [payload, List.length_flatten, List.map_map]
        rfl
      rw [this, hmp]
      omega
    rw [← hmp] at hk hlen
    obtain ⟨hfit, hf3, hfl, hf0⟩ := format_fits (m := m) (by rw [hm]) (by rw [hm]) (by rw [hm]) hts hk
    unfold prepare
    rw [if_neg (by omega)]
    simp only [hmlen]
    rw [← hmp]
    obtain ⟨f, hfe⟩ : ∃ f, f = format h lh m.payload.length := ⟨_, rfl⟩
    simp only [← hfe] at hfit hf3 hfl hf0 ⊢
    obtain ⟨fmt, field⟩ := f
    simp only at hfit hf3 hfl hf0 ⊢
    rw [header_mhdr hf3 (m := m) (by rw [hm]) (by rw [hm]), again_basic hf3]
    -- the headers
    have hba := basic_len (fmt := fmt) (csid := h.csid) hid.1
    have hba3 := basic_len (fmt := 3) (csid := h.csid) hid.1
    have hb32 : ∀ n, (big32 n).length = 4 := fun _ => rfl
    have hthl : (basic 3 h.csid ++ if 0xffffff ≤ field ∧ fix = true then big32 field else []).length ≤ 7 := by
      rw [List.length_append, hba3]
      split <;> split <;> (try split) <;> simp [hb32]
    rw [if_neg (by omega)]
    have hth : (basic 3 h.csid ++ if 0xffffff ≤ field ∧ fix = true then big32 field else []) = basic 3 h.csid ++ extTs T 3 field := by
      congr 1
      unfold extTs big
      rw [hrep, big32_be32]
      simp
    have hex : (if 0xffffff ≤ field then big32 field else []) = extTs T fmt field := by
      unfold extTs big
      rw [big32_be32]
      by_cases hl : 0xffffff ≤ field
      · have : fmt ≤ 2 := by
          rcases Nat.lt_or_ge fmt 3 with h | h
          · omega
          · have := hf0 (by omega)
            omega
        rw [if_pos hl, if_pos ⟨hl, .inl this⟩]
      · rw [if_neg hl, if_neg (fun h => hl h.1)]
    have hhs : headSize fmt field h.csid = (basic fmt h.csid ++ mhdr fmt field m ++ extTs T fmt field).length := by
      have h1 := header_len hf3 (if 0xffffff ≤ field then 0xffffff else field) m.payload.length h
      rw [header_mhdr hf3 (m := m) (by rw [hm]) (by rw [hm])] at h1
      rw [List.length_append, List.length_append, hba, ← hex]
      unfold headSize
      split <;> simp [hb32] <;> omega
    have hhs18 : headSize fmt field h.csid ≤ 18 := by
      unfold headSize hdrSize
      repeat' split
      all_goals omega
    rw [hth, hex]
    rw [hth] at hthl
    simp only [prepend]
    rw [if_pos (by rw [hfront b (by simp)]; exact hhs18)]
    simp only []
    rw [others_ok (fun x hx => by rw [hfront x (by simp [hx])]; omega), Res.map_ok]
    rw [hhs, Nat.sub_self, List.drop_zero]
    -- the chunks
    obtain ⟨p, hp⟩ : ∃ p : Prev, p = ⟨m.ts, m.payload.length, m.type, m.msid, field, fmt == 0⟩ := ⟨_, rfl⟩
    have hbasic : Basic fmt h.csid (basic fmt h.csid) := basic_ok hid.1 hid.2.1
    have hbasic3 : Basic 3 h.csid (basic 3 h.csid) := basic_ok hid.1 hid.2.1
    rw [← hm] at hF
    have hmix : T.mix = false → fmt = 3 → big ≤ field → S.last = field := by
      intro _ h3 hb
      have := hf0 h3
      unfold big at hb
      omega
    have hfirst : ∀ S1, Finish F { S with last := field } h.csid p m (m.payload.drop S.size) S1 →
        Sends F T maxStreams maxLen S (basic fmt h.csid ++ mhdr fmt field m ++ extTs T fmt field ++ m.payload.take S.size) S1 := by
      intro S1 hfin
      rw [hp] at hfin
      exact .first h.csid fmt field _ m (by rw [hm]) hid.2.2 hcur hbasic (by rw [hm]; exact hts) (by rw [hm]; exact hty) (by rw [hm]; exact hms) hlen.1 hlen.2
        hfl hfit (fun h => by rw [hext] at h; cases h) hmix hfin
    have hpe : p = ⟨h.ts, m.payload.length, h.type, h.msid, field, fmt == 0⟩ := by rw [hp, hm]
    have hme : (⟨h.csid, h.ts, h.type, h.msid, m.payload⟩ : Mess) = m := by rw [hm]
    rw [hme, ← hpe]
    have hpl : m.payload = b.data ++ payload bs := by rw [hmp]; simp [payload]
    have hout : ∀ fr, bytes (⟨fr, basic fmt h.csid ++ mhdr fmt field m ++ extTs T fmt field ++ b.data⟩ ::
        bs.map fun b => ⟨b.front - (basic 3 h.csid ++ extTs T 3 field).length, basic 3 h.csid ++ extTs T 3 field ++ b.data⟩) =
        (basic fmt h.csid ++ mhdr fmt field m ++ extTs T fmt field ++ b.data) ++
          (bs.map fun b => basic 3 h.csid ++ extTs T 3 field ++ b.data).flatten := by
      intro fr
      simp only [payload, List.map_cons, List.flatten_cons, List.map_map]
      rfl
    cases bs with
    | nil =>
      have hb : b.data.length ≤ S.size := hpieces
      have hpl' : m.payload = b.data := by rw [hpl]; simp [payload]
      obtain ⟨S', h1, h2⟩ := finish_last (F := F) (S := { S with last := field }) (c := h.csid) (p := p) (m := m) hF hs
      have h3 := hfirst S' (by rw [hpl', List.drop_eq_nil_of_le hb]; exact h1)
      rw [hpl', List.take_of_length_le hb] at h3
      refine ⟨_, S', rfl, ?_, h2.sent, h2.lane, h2.other, h2.size⟩
      rw [hout]
      exact .more h3 (.done S')
    | cons b2 bs =>
      obtain ⟨hb, hp2, hne⟩ := hpieces
      have hdrop : m.payload.drop S.size = payload (b2 :: bs) := by rw [hpl, ← hb]; simp
      have htake : m.payload.take S.size = b.data := by rw [hpl, ← hb]; simp
      have hfin : Finish F { S with last := field } h.csid p m (m.payload.drop S.size)
          (Sender.put { S with last := field } h.csid ⟨some p, some (m, payload (b2 :: bs))⟩) := by
        unfold Finish
        rw [hdrop, if_neg hne]
      have h3 := hfirst _ hfin
      rw [htake] at h3
      have hpf : p.field = field := by rw [hp]
      obtain ⟨S', h4, h5⟩ := others_sends (F := F) (T := T) (maxId := maxStreams) (maxLen := maxLen) h.csid p m sizes _ hbasic3 hs (b2 :: bs)
        (Sender.put { S with last := field } h.csid ⟨some p, some (m, payload (b2 :: bs))⟩) hp2 hne (by simp [Sender.put]) (by rw [hpf]; rfl) hF
      rw [hpf] at h4
      refine ⟨_, S', rfl, ?_, h5.sent, h5.lane, fun d hd => by rw [h5.other d hd]; simp [Sender.put, hd], h5.size⟩
      rw [hout]
      exact .more h3 h4

end Verif.RtmpSend
