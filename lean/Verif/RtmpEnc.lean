import Verif.RtmpProps
import Verif.RtmpSpec

/-!
# RTMP: messages of a sender are delivered

C65.
-/

namespace Verif.Rtmp
open RtmpSpec (be24 be32 Basic big mhdr Terms extTs Prev Lane Fits Sender Finish Sends Stream Mess)

/-- A message without the cuts between its buffers. -/
def Msg.flat (m : Msg) : Mess := ⟨m.csid, m.timestamp, m.type, m.msid, m.data.flatten⟩

/-- Handlers that do not look at the cuts. -/
def flatH (F : List Mess → Option (List Nat)) : Handler := fun log => F (log.map Msg.flat)

/-! ## Bytes -/

theorem ofNat_toNat (n : Nat) : (UInt8.ofNat n).toNat = n % 256 := by simp

theorem beNum3 (a b c : UInt8) : beNum [a, b, c] = a.toNat * 65536 + b.toNat * 256 + c.toNat := by
  simp [beNum]; omega

theorem beNum4 (a b c d : UInt8) : beNum [a, b, c, d] = a.toNat * 16777216 + b.toNat * 65536 + c.toNat * 256 + d.toNat := by
  simp [beNum]; omega

theorem beNum_be24 {n : Nat} (h : n < 2 ^ 24) :
    beNum [UInt8.ofNat (n / 65536), UInt8.ofNat (n / 256), UInt8.ofNat n] = n := by
  rw [beNum3]
  simp only [ofNat_toNat]
  omega

theorem beNum_be32 {n : Nat} (h : n < 2 ^ 32) :
    beNum [UInt8.ofNat (n / 16777216), UInt8.ofNat (n / 65536), UInt8.ofNat (n / 256), UInt8.ofNat n] = n := by
  rw [beNum4]
  simp only [ofNat_toNat]
  omega

theorem basic_ok {fmt c : Nat} {b : List UInt8} (h : Basic fmt c b) (hf : fmt ≤ 3) (y : List UInt8) :
    basicHdr (b ++ y) = some (fmt, c, b.length) ∧ 2 ≤ c := by
  cases h with
  | one h1 h2 =>
    simp only [List.cons_append, List.nil_append, basicHdr, ofNat_toNat]
    rw [if_neg (by omega), if_neg (by omega)]
    simp
    omega
  | two h1 h2 =>
    simp only [List.cons_append, List.nil_append, basicHdr, ofNat_toNat]
    rw [if_pos (by omega)]
    simp
    omega
  | three h1 h2 =>
    simp only [List.cons_append, List.nil_append, basicHdr, ofNat_toNat]
    rw [if_neg (by omega), if_pos (by omega)]
    simp
    omega

/-! ## The header -/

/-- The time field without its extension. -/
def stampOf (fmt field : Nat) (h : Hdr) : Stamp :=
  if fmt = 0 then ⟨min field big, min field big == 0xffffff, 11⟩
  else if fmt = 1 then ⟨min field big, min field big == 0xffffff, 7⟩
  else if fmt = 2 then ⟨min field big, min field big == 0xffffff, 3⟩
  else ⟨h.dtime, h.ext, 0⟩

theorem msgHdr_first {fmt field : Nat} {m : Mess} {h : Hdr} (hf : fmt ≤ 3) (hl : m.payload.length < 2 ^ 24) (ht : m.type < 256) (hs : m.msid < 2 ^ 32)
    (h1 : 1 ≤ fmt → h.msid = m.msid) (h2 : 2 ≤ fmt → h.mlen = m.payload.length ∧ h.type = m.type) (y : List UInt8) :
    msgHdr fmt h (mhdr fmt field m ++ y) = ({ h with mlen := m.payload.length, type := m.type, msid := m.msid }, some (stampOf fmt field h)) ∧
      (stampOf fmt field h).size = (mhdr fmt field m).length := by
  have hmin : min field big < 2 ^ 24 := by unfold big; omega
  have ht' : m.type % 256 = m.type := Nat.mod_eq_of_lt ht
  have hr : (be32 m.msid).reverse = [UInt8.ofNat m.msid, UInt8.ofNat (m.msid / 256), UInt8.ofNat (m.msid / 65536), UInt8.ofNat (m.msid / 16777216)] := rfl
  rcases (by omega : fmt = 0 ∨ fmt = 1 ∨ fmt = 2 ∨ fmt = 3) with rfl | rfl | rfl | rfl
  · refine ⟨?_, rfl⟩
    simp only [mhdr, if_true, stampOf, hr, be24, List.cons_append, List.nil_append, msgHdr, beNum_be24 hmin, beNum_be24 hl, ofNat_toNat, ht',
      beNum_be32 hs, Nat.zero_le, if_true]
  · refine ⟨?_, rfl⟩
    simp only [mhdr, if_true, stampOf, be24, List.cons_append, List.nil_append, msgHdr, h1 (Nat.le_refl 1)]
    simp [beNum_be24 hmin, beNum_be24 hl, ht, ← h1 (Nat.le_refl 1)]
  · refine ⟨?_, rfl⟩
    obtain ⟨q1, q2⟩ := h2 (Nat.le_refl 2)
    have q3 := h1 (by omega)
    simp only [mhdr, stampOf, be24, List.cons_append, List.nil_append, msgHdr]
    simp [beNum_be24 hmin, ← q1, ← q2, ← q3]
  · refine ⟨?_, rfl⟩
    obtain ⟨q1, q2⟩ := h2 (by omega)
    have q3 := h1 (by omega)
    simp [stampOf, msgHdr, ← q1, ← q2, ← q3]

theorem ext_yes {fmt field : Nat} {h : Hdr} {t3 : T3} {lastTs : Nat} {st : Stamp} (he : st.ext = true) (hf : field < 2 ^ 32) (y : List UInt8)
    (ha : t3 = .auto → fmt > 2 → lastTs = field) :
    extHdr fmt h t3 lastTs st (be32 field ++ y) = some (field, 4, if t3 = .auto ∧ fmt > 2 then .on else t3, h.ext) := by
  unfold extHdr be32
  rw [if_pos he]
  simp only [List.cons_append, List.nil_append, beNum_be32 hf]
  by_cases hc : t3 = .auto ∧ fmt > 2
  · rw [if_pos hc, if_pos hc, if_neg (by rw [ha hc.1 hc.2]; simp)]
  · rw [if_neg hc, if_neg hc]

theorem ext_no {fmt : Nat} {h : Hdr} {t3 : T3} {lastTs : Nat} {st : Stamp} (he : st.ext = false) (y : List UInt8) :
    extHdr fmt h t3 lastTs st y = some (st.ts, 0, t3, h.ext) := by
  unfold extHdr
  rw [if_neg (by rw [he]; simp)]

/-! ## Copies keep the bytes -/

theorem cutBuf_flatten {n : Nat} (hn : 0 < n) : ∀ (fuel : Nat) (done : List (List UInt8)) (lo bs : List UInt8),
    bs.length + (if lo = [] then 1 else 2) ≤ fuel → (cutBuf fuel n done lo bs).1.flatten ++ (cutBuf fuel n done lo bs).2 = done.flatten ++ lo ++ bs := by
  intro fuel
  induction fuel with
  | zero => intro done lo bs h; split at h <;> omega
  | succ fuel ih =>
    intro done lo bs h
    unfold cutBuf
    split
    · simp
    · rw [ih]
      · simp
      · rw [if_pos rfl, List.length_drop]
        split at h
        · rename_i hl
          rw [hl] at *
          simp only [List.length_nil] at *
          omega
        · omega

theorem cutChain_flatten {n : Nat} (hn : 0 < n) : ∀ (fs : List (List UInt8)) (done : List (List UInt8)) (lo : List UInt8),
    (cutChain n done lo fs).flatten = done.flatten ++ lo ++ fs.flatten := by
  intro fs
  induction fs with
  | nil => intro done lo; simp [cutChain]
  | cons f fs ih =>
    intro done lo
    rw [cutChain, ih, cutBuf_flatten hn _ _ _ _ (by split <;> omega)]
    simp

theorem recut_flatten {n : Nat} (hn : 0 < n) (fs : List (List UInt8)) : (recut n fs).flatten = fs.flatten := by
  unfold recut
  split
  · rename_i h; rw [h]
  · rw [cutChain_flatten hn]
    simp

/-! ## The invariant -/

/-- What the chunk stream `c` of the machine is, for a sender that has the lane `l`. -/
structure LaneOk (T : Terms) (t3 : T3) (c : Nat) (l : Lane) (a : AStrm) : Prop where
  fresh : l.prev = none → l.cur = none
  hdr : ∀ p, l.prev = some p → a.h.mlen = p.len ∧ a.h.type = p.type ∧ a.h.msid = p.msid ∧ a.h.dtime = (if p.abs then 0 else p.field) ∧
    a.h.ext = (decide (big ≤ p.field) && t3 != .off) ∧ p.field < 2 ^ 32 ∧ p.len < 2 ^ 24 ∧ (T.ext = false → p.field < big)
  idle : l.cur = none → a.h.len = 0 ∧ a.frags = [] ∧ ∀ p, l.prev = some p → a.h.timestamp = p.ts
  busy : ∀ m rest, l.cur = some (m, rest) → m.csid = c ∧ a.h.len = a.frags.flatten.length ∧ a.h.len ≠ 0 ∧ rest ≠ [] ∧ m.payload = a.frags.flatten ++ rest ∧
    ∀ p, l.prev = some p → m.ts = (a.h.timestamp + a.h.dtime) % 2 ^ 32 ∧ m.ts = p.ts ∧ m.type = p.type ∧ m.msid = p.msid ∧ m.payload.length = p.len

/-- How chunks of type 3 are read fits the sender. -/
def ModeOk (T : Terms) (t3 : T3) : Prop :=
  T.ext = false ∨ (t3 = .on ∧ T.rep = true) ∨ (t3 = .off ∧ T.rep = false) ∨ (t3 = .auto ∧ T.rep = true ∧ T.mix = false)

structure Sim (g : Cfg) (T : Terms) (S : Sender) (A : AM) : Prop where
  size : A.chunk = S.size
  pos : 1 ≤ S.size
  log : A.log.map Msg.flat = S.sent
  len : A.streams.length = g.maxStreams
  mode : ModeOk T A.type3
  last : A.lastTs = S.last
  lanes : ∀ c a, 2 ≤ c → A.streams[c]? = some a → LaneOk T A.type3 c (S.lanes c) a
  lens : ∀ c p, (S.lanes c).prev = some p → c < g.maxStreams ∧ p.len ≤ g.maxMessage

/-! ## The data of a chunk -/

theorem body_part {H : Handler} {A : AM} {c : Nat} {h : Hdr} {frags : List (List UInt8)} {rest y : List UInt8} (hst : A.streams[c]? = some ⟨h, frags⟩)
    (hlen : h.len = frags.flatten.length) (hml : h.mlen = h.len + rest.length) (hlt : h.mlen < 2 ^ 24) (hbig : A.chunk < rest.length) :
    A.body H c (rest.take A.chunk ++ y) =
      .ok ({ A with streams := A.streams.set c ⟨{ h with len := h.len + A.chunk }, frags ++ [rest.take A.chunk]⟩ }, (rest.take A.chunk).length) := by
  have hl : left h = rest.length := by unfold left; omega
  have htl : (rest.take A.chunk).length = A.chunk := by rw [List.length_take]; omega
  unfold AM.body
  rw [hst]
  simp only
  rw [hl, if_neg (by rw [List.length_append, htl]; omega), if_pos hbig, htl]
  have h1 : (rest.take A.chunk ++ y).take A.chunk = rest.take A.chunk := by
    rw [List.take_append_of_le_length (by omega), List.take_take, Nat.min_self]
  rw [h1, Nat.mod_eq_of_lt (by omega)]

theorem body_last {F : List Mess → Option (List Nat)} {A : AM} {c : Nat} {h : Hdr} {frags : List (List UInt8)} {rest y : List UInt8}
    (hst : A.streams[c]? = some ⟨h, frags⟩)
    (hml : h.mlen = h.len + rest.length) (hlt : h.mlen < 2 ^ 24) (hbig : rest.length ≤ A.chunk) {sizes : List Nat}
    (hF : F (A.log.map Msg.flat ++ [⟨c, (h.timestamp + h.dtime) % 2 ^ 32, h.type, h.msid, frags.flatten ++ rest⟩]) = some sizes) :
    ∃ log, log.map Msg.flat = A.log.map Msg.flat ++ [⟨c, (h.timestamp + h.dtime) % 2 ^ 32, h.type, h.msid, frags.flatten ++ rest⟩] ∧
    A.body (flatH F) c (rest.take A.chunk ++ y) =
      .ok (({ A with log := log, streams := A.streams.set c ⟨{ h with len := 0, timestamp := (h.timestamp + h.dtime) % 2 ^ 32 }, []⟩ } : AM).setChunks sizes,
        (rest.take A.chunk).length) := by
  have hl : left h = rest.length := by unfold left; omega
  refine ⟨A.log ++ [⟨c, (h.timestamp + h.dtime) % 2 ^ 32, h.mlen, h.type, h.msid, frags ++ [rest]⟩], by simp [Msg.flat], ?_⟩
  unfold AM.body
  rw [hst]
  simp only
  rw [hl, List.take_of_length_le hbig, if_neg (by rw [List.length_append]; omega), if_neg (by omega)]
  have h1 : (rest ++ y).take rest.length = rest := by simp
  rw [h1]
  have h2 : flatH F (A.log ++ [⟨c, (h.timestamp + h.dtime) % 2 ^ 32, h.mlen, h.type, h.msid, frags ++ [rest]⟩]) = some sizes := by
    unfold flatH
    rw [List.map_append]
    simp only [List.map_cons, List.map_nil, Msg.flat, List.flatten_append, List.flatten_cons, List.flatten_nil, List.append_nil]
    exact hF
  rw [h2]

/-! ## The header of a chunk -/

/-- How the reading of chunks of type 3 changes. -/
def Goes (t3 t3' : T3) : Prop := t3' = t3 ∨ (t3 = .auto ∧ t3' = .on)

theorem laneOk_mode {T : Terms} {t3 t3' : T3} {c : Nat} {l : Lane} {a : AStrm} (h : LaneOk T t3 c l a) (hg : Goes t3 t3') : LaneOk T t3' c l a := by
  refine ⟨h.fresh, ?_, h.idle, h.busy⟩
  intro p hp
  obtain ⟨h1, h2, h3, h4, h5, h6⟩ := h.hdr p hp
  refine ⟨h1, h2, h3, h4, ?_, h6⟩
  rw [h5]
  rcases hg with rfl | ⟨rfl, rfl⟩
  · rfl
  · rfl

theorem modeOk_goes {T : Terms} {t3 t3' : T3} (h : ModeOk T t3) (hg : Goes t3 t3') : ModeOk T t3' := by
  rcases hg with rfl | ⟨rfl, rfl⟩
  · exact h
  · rcases h with h | ⟨h, _⟩ | ⟨h, _⟩ | ⟨_, h, _⟩
    · exact Or.inl h
    · cases h
    · cases h
    · exact Or.inr (Or.inl ⟨rfl, h⟩)

/-- The extended timestamp of a chunk, for the mode and the sender. -/
theorem ext_read {T : Terms} {t3 : T3} {fmt field lastTs : Nat} {h : Hdr} {st : Stamp} (hm : ModeOk T t3) (hf : field < 2 ^ 32) (hf3 : fmt ≤ 3)
    (hx : T.ext = false → field < big) (hst : st.ext = (decide (big ≤ field) && (decide (fmt ≤ 2) || t3 != .off)))
    (hlast : T.mix = false → fmt = 3 → big ≤ field → lastTs = field) (y : List UInt8) :
    ∃ t3', Goes t3 t3' ∧ extHdr fmt h t3 lastTs st (extTs T fmt field ++ y) = some (if st.ext then field else st.ts, (extTs T fmt field).length, t3', h.ext) := by
  by_cases he : st.ext = true
  · rw [he, Eq.comm, Bool.and_eq_true, decide_eq_true_eq] at hst
    obtain ⟨hb, hm2⟩ := hst
    have hrep : fmt ≤ 2 ∨ T.rep = true := by
      by_cases h2 : fmt ≤ 2
      · exact Or.inl h2
      · right
        rcases hm with h | ⟨_, h⟩ | ⟨h, _⟩ | ⟨_, h, _⟩
        · exact absurd (hx h) (by omega)
        · exact h
        · rw [h] at hm2
          simp [h2] at hm2
        · exact h
    have e : extTs T fmt field = be32 field := by
      unfold extTs
      rw [if_pos ⟨hb, hrep⟩]
    have := ext_yes (fmt := fmt) (field := field) (h := h) (t3 := t3) (lastTs := lastTs) he hf y (by
      intro ha h3
      rcases hm with h | ⟨h, _⟩ | ⟨h, _⟩ | ⟨_, _, h⟩
      · exact absurd (hx h) (by omega)
      · rw [h] at ha; cases ha
      · rw [h] at ha; cases ha
      · exact hlast h (by omega) hb)
    rw [e, this, if_pos he]
    refine ⟨_, ?_, rfl⟩
    split
    · rename_i hc; exact Or.inr ⟨hc.1, rfl⟩
    · exact Or.inl rfl
  · have he' : st.ext = false := by simpa using he
    rw [he'] at hst
    have e : extTs T fmt field = [] := by
      unfold extTs
      rw [if_neg]
      rintro ⟨hb, hr⟩
      have hb' : decide (big ≤ field) = true := decide_eq_true hb
      rw [hb', Bool.true_and, Eq.comm, Bool.or_eq_false_iff] at hst
      obtain ⟨h1, h2⟩ := hst
      have h3 : ¬ fmt ≤ 2 := by simpa using h1
      have hoff : t3 = .off := by
        cases t3 <;> first | rfl | (simp at h2)
      rcases hm with h | ⟨h, _⟩ | ⟨_, h⟩ | ⟨h, _⟩
      · exact absurd (hx h) (by omega)
      · rw [hoff] at h; cases h
      · rcases hr with hr | hr
        · exact h3 hr
        · rw [h] at hr; cases hr
      · rw [hoff] at h; cases h
    rw [e, he', ext_no he']
    exact ⟨t3, Or.inl rfl, by simp⟩

/-- The header of the chunk stream after the first chunk of a message. -/
def firstHdr (fmt field : Nat) (m : Mess) (t3 : T3) (h : Hdr) : Hdr :=
  { h with
    mlen := m.payload.length, type := m.type, msid := m.msid, ext := decide (big ≤ field) && t3 != .off
    dtime := if fmt = 0 then 0 else field, timestamp := if fmt = 0 then field else h.timestamp }

theorem head_first {g : Cfg} {T : Terms} {A : AM} {c fmt field : Nat} {b y : List UInt8} {m : Mess} {l : Lane} {a : AStrm} {last : Nat}
    (ha : A.streams[c]? = some a) (hl : LaneOk T A.type3 c l a) (hmode : ModeOk T A.type3) (hlast : A.lastTs = last) (hc : c < g.maxStreams)
    (hcur : l.cur = none) (hb : Basic fmt c b) (ht : m.type < 256) (hs : m.msid < 2 ^ 32) (hp : m.payload.length < 2 ^ 24)
    (hmax : m.payload.length ≤ g.maxMessage) (hf : field < 2 ^ 32) (hfit : Fits T fmt field m l.prev) (hzero : T.zero = false)
    (hx : T.ext = false → field < big) (hmix : T.mix = false → fmt = 3 → big ≤ field → last = field) :
    ∃ t3', Goes A.type3 t3' ∧ A.head g (b ++ mhdr fmt field m ++ extTs T fmt field ++ y) =
      .ok ({ A with streams := A.streams.set c { a with h := firstHdr fmt field m t3' a.h }, type3 := t3', lastTs := field }, c,
        (b ++ mhdr fmt field m ++ extTs T fmt field).length) := by
  have hf3 : fmt ≤ 3 := by
    unfold Fits at hfit
    split at hfit
    · omega
    · rcases hfit with h | h <;> omega
  have hlen0 := (hl.idle hcur).1
  obtain ⟨hbas, _⟩ := basic_ok hb hf3 (mhdr fmt field m ++ (extTs T fmt field ++ y))
  have hh1 : 1 ≤ fmt → a.h.msid = m.msid := by
    intro h1
    unfold Fits at hfit
    split at hfit
    · omega
    · rename_i p hp
      have := hl.hdr p hp
      rcases hfit with h | h
      · omega
      · rw [this.2.2.1, h.2.2.1]
  have hh2 : 2 ≤ fmt → a.h.mlen = m.payload.length ∧ a.h.type = m.type := by
    intro h2
    unfold Fits at hfit
    split at hfit
    · omega
    · rename_i p hp
      have := hl.hdr p hp
      rcases hfit with h | h
      · omega
      · rw [this.1, this.2.1, (h.2.2.2.2.1 h2).1, (h.2.2.2.2.1 h2).2]
        exact ⟨rfl, rfl⟩
  obtain ⟨e1, e2⟩ := msgHdr_first (field := field) (h := a.h) hf3 hp ht hs hh1 hh2 (extTs T fmt field ++ y)
  have hstx : (stampOf fmt field a.h).ext = (decide (big ≤ field) && (decide (fmt ≤ 2) || A.type3 != .off)) ∧
      ((stampOf fmt field a.h).ext = false → (stampOf fmt field a.h).ts = field) := by
    have hmm : (min field big == 0xffffff) = decide (big ≤ field) := by
      unfold big
      by_cases h : 0xffffff ≤ field
      · rw [decide_eq_true h]
        simp; omega
      · rw [decide_eq_false h]
        simp; omega
    by_cases h2 : fmt ≤ 2
    · have : stampOf fmt field a.h = ⟨min field big, decide (big ≤ field), (stampOf fmt field a.h).size⟩ := by
        rcases (by omega : fmt = 0 ∨ fmt = 1 ∨ fmt = 2) with rfl | rfl | rfl <;> simp only [stampOf, hmm] <;> rfl
      rw [this]
      simp only [h2, decide_true, Bool.true_or, Bool.and_true, true_and]
      intro hd
      have := of_decide_eq_false hd
      omega
    · have h3 : fmt = 3 := by omega
      subst h3
      have : stampOf 3 field a.h = ⟨a.h.dtime, a.h.ext, 0⟩ := rfl
      rw [this]
      simp only
      unfold Fits at hfit
      split at hfit
      · omega
      · rename_i p hp
        have hq := hl.hdr p hp
        rcases hfit with h | h
        · omega
        · obtain ⟨r1, r2⟩ := h.2.2.2.2.2 rfl
          rw [hzero] at r2
          have r3 : p.abs = false := by simpa using r2
          rw [hq.2.2.2.2.1, hq.2.2.2.1, r3, r1]
          refine ⟨by simp, fun _ => by simp⟩
  obtain ⟨t3', hg, e3⟩ := ext_read (T := T) (t3 := A.type3) (fmt := fmt) (field := field) (lastTs := A.lastTs)
    (h := { a.h with mlen := m.payload.length, type := m.type, msid := m.msid }) (st := stampOf fmt field a.h) hmode hf hf3 hx hstx.1
    (by rw [hlast]; exact hmix) y
  refine ⟨t3', hg, ?_⟩
  unfold AM.head
  rw [List.append_assoc, List.append_assoc, hbas]
  simp only
  rw [if_neg (by omega), ha]
  simp only
  rw [List.drop_left]
  have e4 : header fmt b.length a.h A.type3 A.lastTs (mhdr fmt field m ++ (extTs T fmt field ++ y)) =
      ({ a.h with mlen := m.payload.length, type := m.type, msid := m.msid },
        some ⟨firstHdr fmt field m t3' a.h, t3', field, b.length + (mhdr fmt field m).length + (extTs T fmt field).length⟩) := by
    unfold header
    rw [e1]
    simp only
    rw [e2, List.drop_left, e3]
    simp only
    have hts : (if (stampOf fmt field a.h).ext = true then field else (stampOf fmt field a.h).ts) = field := by
      split
      · rfl
      · rename_i hn
        exact hstx.2 (by simpa using hn)
    rw [hts]
    have hext : ((stampOf fmt field a.h).ext && t3' != .off) = (decide (big ≤ field) && t3' != .off) := by
      rw [hstx.1]
      rcases hg with rfl | ⟨h1, rfl⟩
      · cases decide (big ≤ field) <;> cases decide (fmt ≤ 2) <;> simp
      · rw [h1]
        cases decide (big ≤ field) <;> cases decide (fmt ≤ 2) <;> simp
    unfold start
    simp only [hlen0, if_true]
    rw [hext]
    unfold firstHdr
    by_cases h0 : fmt = 0
    · simp [h0, hlen0]
    · simp [h0, hlen0]
  rw [e4]
  simp only
  rw [if_neg (by unfold firstHdr; simp only; omega)]
  simp only [List.length_append]

theorem head_next {g : Cfg} {T : Terms} {A : AM} {c : Nat} {b y : List UInt8} {l : Lane} {a : AStrm} {last : Nat} {m : Mess} {rest : List UInt8} {p : Prev}
    (ha : A.streams[c]? = some a) (hl : LaneOk T A.type3 c l a) (hmode : ModeOk T A.type3) (hlast : A.lastTs = last) (hc : c < g.maxStreams)
    (hcur : l.cur = some (m, rest)) (hprev : l.prev = some p) (hb : Basic 3 c b) (hmax : p.len ≤ g.maxMessage)
    (hmix : T.mix = false → big ≤ p.field → last = p.field) :
    ∃ t3', Goes A.type3 t3' ∧ A.head g (b ++ extTs T 3 p.field ++ y) =
      .ok ({ A with streams := A.streams.set c a, type3 := t3' }, c, (b ++ extTs T 3 p.field).length) := by
  have hq := hl.hdr p hprev
  have hlen0 := (hl.busy m rest hcur).2.2.1
  obtain ⟨hbas, _⟩ := basic_ok hb (Nat.le_refl 3) (extTs T 3 p.field ++ y)
  obtain ⟨t3', hg, e3⟩ := ext_read (T := T) (t3 := A.type3) (fmt := 3) (field := p.field) (lastTs := A.lastTs)
    (h := a.h) (st := ⟨a.h.dtime, a.h.ext, 0⟩) hmode hq.2.2.2.2.2.1 (Nat.le_refl 3) hq.2.2.2.2.2.2.2
    (by simp only; rw [hq.2.2.2.2.1]; simp) (by rw [hlast]; exact fun h _ => hmix h) y
  refine ⟨t3', hg, ?_⟩
  unfold AM.head
  rw [List.append_assoc, hbas]
  simp only
  rw [if_neg (by omega), ha]
  simp only
  rw [List.drop_left]
  have e4 : header 3 b.length a.h A.type3 A.lastTs (extTs T 3 p.field ++ y) =
      (a.h, some ⟨a.h, t3', A.lastTs, b.length + 0 + (extTs T 3 p.field).length⟩) := by
    unfold header
    rw [show msgHdr 3 a.h (extTs T 3 p.field ++ y) = (a.h, some ⟨a.h.dtime, a.h.ext, 0⟩) from rfl]
    simp only
    rw [List.drop_zero, e3]
    simp only
    unfold start
    rw [if_neg hlen0]
  rw [e4]
  simp only
  rw [if_neg (by rw [hq.1]; omega)]
  simp only [List.length_append, Nat.add_zero]

/-! ## The chunk size -/

theorem laneOk_recut {T : Terms} {t3 : T3} {c n : Nat} {l : Lane} {a : AStrm} (hn : 0 < n) (h : LaneOk T t3 c l a) :
    LaneOk T t3 c l { a with frags := recut n a.frags } := by
  refine ⟨h.fresh, h.hdr, ?_, ?_⟩
  · intro hc
    obtain ⟨h1, h2, h3⟩ := h.idle hc
    refine ⟨h1, ?_, h3⟩
    simp only
    rw [h2]
    rfl
  · intro m rest hc
    simp only
    rw [recut_flatten hn]
    exact h.busy m rest hc

theorem setChunk_sim {g : Cfg} {T : Terms} {S : Sender} {A : AM} {n : Nat} (h : Sim g T S A) (h1 : 1 ≤ n) (h2 : n ≤ 10485760) :
    Sim g T { S with size := n } (A.setChunk n) := by
  have e : A.setChunk n = { A with chunk := n, streams := A.streams.map fun st => { st with frags := recut (n + maxHeader) st.frags } } := by
    unfold AM.setChunk
    rw [if_neg (by unfold maxChunk; omega)]
  rw [e]
  refine ⟨rfl, h1, h.log, by simp [h.len], h.mode, h.last, ?_, h.lens⟩
  intro c a hc ha
  simp only at ha
  rw [List.getElem?_map, Option.map_eq_some_iff] at ha
  obtain ⟨a', ha', rfl⟩ := ha
  exact laneOk_recut (by omega) (h.lanes c a' hc ha')

theorem setChunks_sim {g : Cfg} {T : Terms} : ∀ (sizes : List Nat) {S : Sender} {A : AM}, Sim g T S A → (∀ n ∈ sizes, 1 ≤ n ∧ n ≤ 10485760) →
    Sim g T { S with size := sizes.getLast?.getD S.size } (A.setChunks sizes) := by
  intro sizes
  induction sizes with
  | nil => intro S A h _; exact h
  | cons n ns ih =>
    intro S A h hs
    have hn := hs n List.mem_cons_self
    have := ih (setChunk_sim h hn.1 hn.2) (fun k hk => hs k (List.mem_cons_of_mem _ hk))
    have e : (n :: ns).getLast?.getD S.size = ns.getLast?.getD n := by
      cases ns with
      | nil => rfl
      | cons k ks => simp [List.getLast?_cons]
    rw [e]
    exact this

/-! ## One chunk -/

/-- What is known of a chunk stream after the header of a chunk. -/
structure Open (g : Cfg) (T : Terms) (S : Sender) (A : AM) (c : Nat) (h : Hdr) (frags : List (List UInt8)) (m : Mess) (p : Prev) (rest : List UInt8) : Prop where
  size : A.chunk = S.size
  pos : 1 ≤ S.size
  log : A.log.map Msg.flat = S.sent
  len : A.streams.length = g.maxStreams
  mode : ModeOk T A.type3
  last : A.lastTs = S.last
  lanes : ∀ d a, d ≠ c → 2 ≤ d → A.streams[d]? = some a → LaneOk T A.type3 d (S.lanes d) a
  lens : ∀ d q, (S.lanes d).prev = some q → d < g.maxStreams ∧ q.len ≤ g.maxMessage
  st : A.streams[c]? = some ⟨h, frags⟩
  id : m.csid = c
  hdr : h.mlen = p.len ∧ h.type = p.type ∧ h.msid = p.msid ∧ h.dtime = (if p.abs then 0 else p.field) ∧
    h.ext = (decide (big ≤ p.field) && A.type3 != .off) ∧ p.field < 2 ^ 32 ∧ p.len < 2 ^ 24 ∧ (T.ext = false → p.field < big)
  hlen : h.len = frags.flatten.length
  data : m.payload = frags.flatten ++ rest
  mess : m.ts = (h.timestamp + h.dtime) % 2 ^ 32 ∧ m.ts = p.ts ∧ m.type = p.type ∧ m.msid = p.msid ∧ m.payload.length = p.len
  bound : c < g.maxStreams ∧ p.len ≤ g.maxMessage

theorem open_body {g : Cfg} {F : List Mess → Option (List Nat)} {T : Terms} {S S' : Sender} {A : AM} {c : Nat} {h : Hdr} {frags : List (List UInt8)} {m : Mess}
    {p : Prev} {rest y : List UInt8} (ho : Open g T S A c h frags m p rest) (hf : Finish F S c p m (rest.drop S.size) S') :
    ∃ A', A.body (flatH F) c (rest.take S.size ++ y) = .ok (A', (rest.take S.size).length) ∧ Sim g T S' A' := by
  obtain ⟨m1, m2, m3, m4, m5⟩ := ho.mess
  have hml : h.mlen = h.len + rest.length := by
    rw [ho.hdr.1, ← m5, ho.data, List.length_append, ho.hlen]
  have hlt : h.mlen < 2 ^ 24 := by
    have := ho.hdr.2.2.2.2.2.2.1
    rw [ho.hdr.1]; exact this
  have hcl : c < A.streams.length := by rw [ho.len]; exact ho.bound.1
  have hlens : ∀ (cur : Option (Mess × List UInt8)) d q, ((S.put c ⟨some p, cur⟩).lanes d).prev = some q → d < g.maxStreams ∧ q.len ≤ g.maxMessage := by
    intro cur d q hq
    unfold Sender.put at hq
    simp only at hq
    split at hq
    · rename_i hd
      cases hq
      rw [hd]
      exact ho.bound
    · exact ho.lens d q hq
  have hlanes : ∀ (cur : Option (Mess × List UInt8)) (x : AStrm), LaneOk T A.type3 c ⟨some p, cur⟩ x → ∀ d a, 2 ≤ d → (A.streams.set c x)[d]? = some a →
      LaneOk T A.type3 d ((S.put c ⟨some p, cur⟩).lanes d) a := by
    intro cur x hx d a hd ha
    unfold Sender.put
    simp only
    by_cases hdc : d = c
    · subst hdc
      rw [List.getElem?_set_self hcl] at ha
      cases ha
      rw [if_pos rfl]
      exact hx
    · rw [List.getElem?_set_ne (by omega)] at ha
      rw [if_neg hdc]
      exact ho.lanes d a hdc hd ha
  unfold Finish at hf
  by_cases hr : rest.drop S.size = []
  · rw [if_pos hr] at hf
    obtain ⟨sizes, e, hv, rfl⟩ := hf
    have hle : rest.length ≤ S.size := List.drop_eq_nil_iff.1 hr
    have hm : m = ⟨c, (h.timestamp + h.dtime) % 2 ^ 32, h.type, h.msid, frags.flatten ++ rest⟩ := by
      cases m
      simp only at m1 m2 m3 m4 m5
      rw [ho.hdr.2.1, ho.hdr.2.2.1, ← m3, ← m4, ← m1, ← ho.data, ← ho.id]
    obtain ⟨log, h1, h2⟩ := body_last (F := F) (y := y) ho.st hml hlt (by rw [ho.size]; exact hle) (sizes := sizes) (by rw [← hm, ho.log]; exact e)
    refine ⟨_, by rw [← ho.size]; exact h2, ?_⟩
    have hs : Sim g T { S.put c ⟨some p, none⟩ with sent := S.sent ++ [m] }
        { A with log := log, streams := A.streams.set c ⟨{ h with len := 0, timestamp := (h.timestamp + h.dtime) % 2 ^ 32 }, []⟩ } := by
      refine ⟨ho.size, ho.pos, by rw [h1, ho.log, ← hm], by simp [ho.len], ho.mode, ho.last, ?_, hlens none⟩
      refine hlanes none _ ⟨fun hq => (by cases hq), ?_, ?_, fun _ _ hq => (by cases hq)⟩
      · intro q hq
        cases hq
        exact ho.hdr
      · intro _
        refine ⟨rfl, rfl, ?_⟩
        intro q hq
        cases hq
        simp only
        rw [← m1, m2]
    have := setChunks_sim sizes hs hv
    exact this
  · rw [if_neg hr] at hf
    subst hf
    have hgt : S.size < rest.length := Nat.lt_of_not_le fun hle => hr (List.drop_eq_nil_iff.2 hle)
    have h2 := body_part (H := flatH F) (y := y) ho.st ho.hlen hml hlt (by rw [ho.size]; exact hgt)
    refine ⟨_, by rw [← ho.size]; exact h2, ?_⟩
    have hpos := ho.pos
    have hfl : (frags ++ [rest.take S.size]).flatten = frags.flatten ++ rest.take S.size := by simp
    refine ⟨ho.size, ho.pos, ho.log, by simp [ho.len], ho.mode, ho.last, ?_, hlens _⟩
    refine hlanes _ _ ⟨fun hq => (by cases hq), ?_, fun hq => (by cases hq), ?_⟩
    · intro q hq
      cases hq
      exact ho.hdr
    · intro m' r' hq
      cases hq
      simp only
      rw [ho.size, hfl, List.length_append, List.length_take, Nat.min_eq_left (by omega), ho.hlen, List.append_assoc, List.take_append_drop]
      refine ⟨ho.id, rfl, by omega, hr, ho.data, ?_⟩
      intro q hq
      cases hq
      exact ho.mess

theorem step_of {g : Cfg} {H : Handler} {A A1 A2 : AM} {x z : List UInt8} {c k : Nat} (h1 : A.head g (x ++ z) = .ok (A1, c, x.length))
    (h2 : A1.body H c z = .ok (A2, k)) : A.step g H (x ++ z) = .ok (A2, x.length + k) := by
  unfold AM.step
  rw [h1]
  simp only
  rw [List.drop_left, h2]

theorem sends_step {g : Cfg} {F : List Mess → Option (List Nat)} {T : Terms} {S S' : Sender} {A : AM} {x : List UInt8} (hs : Sim g T S A)
    (hz : T.zero = false) (h : Sends F T g.maxStreams g.maxMessage S x S') (y : List UInt8) :
    ∃ A', A.step g (flatH F) (x ++ y) = .ok (A', x.length) ∧ Sim g T S' A' := by
  cases h with
  | first c fmt field b m hid hc hcur hb hts hty hms hpl hmax hfd hfit hx hmix hfin =>
    obtain ⟨a, ha⟩ : ∃ a, A.streams[c]? = some a := by
      exact ⟨_, List.getElem?_eq_getElem (by rw [hs.len]; exact hc)⟩
    have hf3 : fmt ≤ 3 := by
      unfold Fits at hfit
      split at hfit
      · omega
      · rcases hfit with h | h <;> omega
    have hc2 : 2 ≤ c := (basic_ok hb hf3 []).2
    have hl := hs.lanes c a hc2 ha
    have hidle := hl.idle hcur
    obtain ⟨t3', hg, e⟩ := head_first (y := m.payload.take S.size ++ y) ha hl hs.mode hs.last hc hcur hb hty hms hpl hmax hfd hfit hz hx hmix
    have ho : Open g T { S with last := field } ({ A with streams := A.streams.set c { a with h := firstHdr fmt field m t3' a.h }, type3 := t3', lastTs := field } : AM)
        c (firstHdr fmt field m t3' a.h) a.frags m ⟨m.ts, m.payload.length, m.type, m.msid, field, fmt == 0⟩ m.payload := by
      refine ⟨hs.size, hs.pos, hs.log, by simp [hs.len], modeOk_goes hs.mode hg, rfl, ?_, hs.lens, ?_, hid, ?_, ?_, ?_, ?_, hc, hmax⟩
      · intro d a' hd h2 ha'
        simp only at ha'
        rw [List.getElem?_set_ne (by omega)] at ha'
        exact laneOk_mode (hs.lanes d a' h2 ha') hg
      · simp only
        rw [List.getElem?_set_self (by rw [hs.len]; exact hc)]
      · unfold firstHdr
        simp only [true_and]
        refine ⟨?_, hfd, hpl, hx⟩
        by_cases h0 : fmt = 0 <;> simp [h0]
      · unfold firstHdr
        simp only
        rw [hidle.1, hidle.2.1]
        rfl
      · rw [hidle.2.1]
        rfl
      · refine ⟨?_, rfl, rfl, rfl, rfl⟩
        unfold firstHdr
        simp only
        by_cases h0 : fmt = 0
        · rw [if_pos h0, if_pos h0, Nat.add_zero]
          have : field = m.ts := by
            unfold Fits at hfit
            split at hfit
            · exact hfit.2
            · rcases hfit with h | h
              · exact h.2
              · omega
          rw [this, Nat.mod_eq_of_lt hts]
        · rw [if_neg h0, if_neg h0]
          unfold Fits at hfit
          split at hfit
          · omega
          · rename_i p hp
            rcases hfit with h | h
            · omega
            · rw [hidle.2.2 p hp]
              exact h.2.2.2.1
    obtain ⟨A', h1, h2⟩ := open_body (y := y) ho hfin
    refine ⟨A', ?_, h2⟩
    have := step_of e h1
    rw [List.append_assoc]
    rw [this]
    simp only [List.length_append]
  | next c b m rest p hcur hprev hb hmix hfin =>
    have hlb := hs.lens c p hprev
    obtain ⟨a, ha⟩ : ∃ a, A.streams[c]? = some a := by
      exact ⟨_, List.getElem?_eq_getElem (by rw [hs.len]; exact hlb.1)⟩
    have hc2 : 2 ≤ c := (basic_ok hb (Nat.le_refl 3) []).2
    have hl := hs.lanes c a hc2 ha
    obtain ⟨b1, b2, b3, b4, b5, b6⟩ := hl.busy m rest hcur
    obtain ⟨t3', hg, e⟩ := head_next (y := rest.take S.size ++ y) ha hl hs.mode hs.last hlb.1 hcur hprev hb hlb.2 hmix
    have hl' := laneOk_mode hl hg
    have ho : Open g T S ({ A with streams := A.streams.set c a, type3 := t3' } : AM) c a.h a.frags m p rest := by
      refine ⟨hs.size, hs.pos, hs.log, by simp [hs.len], modeOk_goes hs.mode hg, hs.last, ?_, hs.lens, ?_, b1, hl'.hdr p hprev, b2, b5, b6 p hprev, hlb⟩
      · intro d a' hd h2 ha'
        simp only at ha'
        rw [List.getElem?_set_ne (by omega)] at ha'
        exact laneOk_mode (hs.lanes d a' h2 ha') hg
      · simp only
        rw [List.getElem?_set_self (by rw [hs.len]; exact hlb.1)]
    obtain ⟨A', h1, h2⟩ := open_body (y := y) ho hfin
    refine ⟨A', ?_, h2⟩
    have := step_of e h1
    rw [List.append_assoc]
    rw [this]
    simp only [List.length_append]

theorem new_sim (g : Cfg) {T : Terms} {t3 : T3} (hm : ModeOk T t3) : Sim g T {} (newAM g t3) := by
  refine ⟨rfl, (by decide : 1 ≤ 128), rfl, by simp [newAM], hm, rfl, ?_, ?_⟩
  · intro c a _ ha
    have : a = {} := by
      unfold newAM at ha
      simp only at ha
      rw [List.getElem?_replicate] at ha
      split at ha
      · cases ha; rfl
      · cases ha
    subst this
    exact ⟨fun _ => rfl, fun p hp => (by cases hp), fun _ => ⟨rfl, rfl, fun p hp => (by cases hp)⟩, fun _ _ hq => (by cases hq)⟩
  · intro c p hp
    cases hp

theorem stream_reads {g : Cfg} {F : List Mess → Option (List Nat)} {T : Terms} {t3 : T3} {bs : List UInt8} {S : Sender} (hm : ModeOk T t3)
    (hz : T.zero = false) (h : Stream F T g.maxStreams g.maxMessage bs S) :
    ∃ A, Reads g (flatH F) (newAM g t3) bs A [] ∧ Sim g T S A := by
  induction h with
  | init => exact ⟨_, .refl, new_sim g hm⟩
  | chunk hst hx ih =>
    rename_i bs x S S'
    obtain ⟨A, h1, h2⟩ := ih
    obtain ⟨A', h3, h4⟩ := sends_step h2 hz hx []
    refine ⟨A', ?_, h4⟩
    have := Reads.step (reads_app h1 x) (by simpa using h3)
    simpa using this

end Verif.Rtmp
