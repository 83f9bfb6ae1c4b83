import Verif.KmpRtmpChunk
import Verif.KmpRtmpSpec

/-!
# KMP to RTMP: a message in chunks, and what is written to memory
-/

namespace Verif.KmpRtmp

open Verif.RtmpSpec
open Verif.RtmpSend (Pieces payload Buf Sent finish_last others_sends or6 low24_be24)

variable {F : List Mess → Option (List Nat)} {T : Terms} {maxId maxLen : Nat}

/-- The time field does not need an extended timestamp, or the sender is allowed to use one: in a message of one chunk, or also in others
when they do not repeat it. -/
def Calm (T : Terms) (size field len : Nat) : Prop := field < big ∨ (T.ext = true ∧ (T.rep = false ∨ len ≤ size))

theorem again_basic {c : Nat} (h2 : 2 ≤ c) (h63 : c ≤ 63) : Basic 3 c [again c] := by
  have : again c = UInt8.ofNat (3 * 64 + c) := by
    unfold again
    rw [show (0xc0 : Nat) = 3 <<< 6 by decide, or6 (by omega)]
  rw [this]
  exact .one c h2 h63

theorem out24_be24 (n : Nat) : out24 n = be24 n := by
  simp [out24, be24, Nat.shiftRight_eq_div_pow]

theorem out32_be32 (n : Nat) : out32 n = be32 n := by
  simp [out32, be32, Nat.shiftRight_eq_div_pow]

theorem le32_be32 (n : Nat) : le32 n = (be32 n).reverse := by
  simp [le32, be32, Nat.shiftRight_eq_div_pow]

theorem writeHeader_eq {fmt c field : Nat} (hf : fmt ≤ 1) (h63 : c ≤ 63) (m : Mess) :
    writeHeader ⟨fmt, c, if 0xffffff ≤ field then 0xffffff else field, m.payload.length, m.type, m.msid⟩ = [UInt8.ofNat (fmt * 64 + c)] ++ mhdr fmt field m := by
  have e : (if 0xffffff ≤ field then 0xffffff else field) = min field big := by
    unfold big
    split <;> omega
  unfold writeHeader
  simp only [e]
  rw [or6 (by omega)]
  obtain rfl | rfl : fmt = 0 ∨ fmt = 1 := by omega
  all_goals simp [mhdr, out24_be24, le32_be32]

theorem mess_sends {S : Sender} {c fmt field : Nat} {m : Mess} {cs : List Bytes} {sizes : List Nat} (hc : m.csid = c) (h2 : 2 ≤ c) (h63 : c ≤ 63) (hid : c < maxId)
    (hcur : (S.lanes c).cur = none) (hts : m.ts < 2 ^ 32) (hty : m.type < 256) (hms : m.msid < 2 ^ 32) (hlen : m.payload.length < 2 ^ 24 ∧ m.payload.length ≤ maxLen)
    (hfl : field < 2 ^ 32) (hfmt : fmt ≤ 1) (hfit : Fits T fmt field m (S.lanes c).prev) (hcalm : Calm T S.size field m.payload.length)
    (hcut : Cut S.size m.payload cs) (hF : F (S.sent ++ [m]) = some sizes) (hs : ∀ n ∈ sizes, 1 ≤ n ∧ n ≤ 10485760) :
    ∃ S', SendsAll F T maxId maxLen S (writeHeader ⟨fmt, c, if 0xffffff ≤ field then 0xffffff else field, m.payload.length, m.type, m.msid⟩ ++
        (if 0xffffff ≤ field then out32 field else []) ++ chunked (again c) cs) S' ∧
      Sent S c ⟨m.ts, m.payload.length, m.type, m.msid, field, fmt == 0⟩ m sizes { S' with last := S.last } := by
  obtain ⟨hfl1, hne, hp⟩ := hcut
  rw [writeHeader_eq hfmt h63]
  have hb : Basic fmt c [UInt8.ofNat (fmt * 64 + c)] := .one c h2 h63
  have hex : (if 0xffffff ≤ field then out32 field else []) = extTs T fmt field := by
    unfold extTs big
    rw [out32_be32]
    by_cases hl : 0xffffff ≤ field
    · rw [if_pos hl, if_pos ⟨hl, .inl (by omega)⟩]
    · rw [if_neg hl, if_neg (fun h => hl h.1)]
  rw [hex]
  have hfirst : ∀ S1, Finish F { S with last := field } c ⟨m.ts, m.payload.length, m.type, m.msid, field, fmt == 0⟩ m (m.payload.drop S.size) S1 →
      Sends F T maxId maxLen S ([UInt8.ofNat (fmt * 64 + c)] ++ mhdr fmt field m ++ extTs T fmt field ++ m.payload.take S.size) S1 := by
    intro S1 hfin
    exact .first c fmt field _ m hc hid hcur hb hts hty hms hlen.1 hlen.2 hfl hfit
      (fun h => by
        rcases hcalm with h' | h'
        · exact h'
        · rw [h] at h'
          exact absurd h'.1 (by simp)) (fun _ h => by omega) hfin
  cases cs with
  | nil => exact absurd rfl hne
  | cons x xs =>
    cases xs with
    | nil =>
      have hx : x.length ≤ S.size := hp
      have hxm : x = m.payload := by simpa using hfl1
      obtain ⟨S1, k1, k2⟩ := finish_last (F := F) (S := { S with last := field }) (c := c)
        (p := ⟨m.ts, m.payload.length, m.type, m.msid, field, fmt == 0⟩) hF hs
      have := hfirst S1 (by rw [← hxm, List.drop_eq_nil_of_le hx, hxm]; exact k1)
      rw [← hxm, List.take_of_length_le hx, hxm] at this
      refine ⟨S1, ?_, ⟨k2.sent, k2.lane, k2.other, k2.size, rfl⟩⟩
      have h' := SendsAll.more this (.done S1)
      simpa [chunked, hxm] using h'
    | cons y ys =>
      obtain ⟨hx, hp2, hne2⟩ := hp
      have hpl : payload (List.map (fun x => (⟨0, x⟩ : Buf)) (y :: ys)) = (y :: ys).flatten := by simp [payload, Function.comp_def]
      have hpay : m.payload = x ++ (y :: ys).flatten := by rw [← hfl1]; simp
      have hne2 : (y :: ys).flatten ≠ [] := by
        intro h
        rw [← hpl] at h
        exact hne2 h
      have hx : x.length = S.size := hx
      have hext3 : extTs T 3 field = [] := by
        unfold extTs
        rw [if_neg]
        rintro ⟨h1, h3⟩
        rcases hcalm with h' | ⟨_, h' | h'⟩
        · omega
        · rw [h'] at h3
          simp at h3
        · rw [hpay, List.length_append, hx] at h'
          have : 0 < ((y :: ys).flatten).length := List.length_pos_iff.2 hne2
          omega
      have hdrop : m.payload.drop S.size = (y :: ys).flatten := by rw [hpay, ← hx]; simp
      have htake : m.payload.take S.size = x := by rw [hpay, ← hx]; simp
      obtain ⟨p, hpe⟩ : ∃ p : Prev, p = ⟨m.ts, m.payload.length, m.type, m.msid, field, fmt == 0⟩ := ⟨_, rfl⟩
      rw [← hpe] at hfirst ⊢
      obtain ⟨S1, hS1⟩ : ∃ S1 : Sender, S1 = ({ S with last := field } : Sender).put c ⟨some p, some (m, (y :: ys).flatten)⟩ := ⟨_, rfl⟩
      have k1 := hfirst S1 (by
        unfold Finish
        rw [hdrop, if_neg hne2]
        exact hS1)
      rw [htake] at k1
      obtain ⟨S2, k2, k3⟩ := others_sends (F := F) (T := T) (maxId := maxId) (maxLen := maxLen) c p m sizes [again c] (again_basic h2 h63) hs
        (List.map (fun x => (⟨0, x⟩ : Buf)) (y :: ys)) S1 (by rw [hS1]; exact hp2) (by rw [hpl]; exact hne2)
        (by rw [hS1, hpl]; simp [Sender.put]) (by rw [hS1, hpe]; rfl) (by rw [hS1]; exact hF)
      refine ⟨S2, ?_, ?_⟩
      · have h' := SendsAll.more k1 k2
        rw [hpe] at h'
        simp only [hext3] at h'
        simpa [chunked, Function.comp_def] using h'
      · refine ⟨by rw [k3.sent, hS1]; rfl, k3.lane, ?_, by rw [k3.size, hS1]; rfl, rfl⟩
        intro d hd
        rw [k3.other d hd, hS1]
        simp [Sender.put, hd]

end Verif.KmpRtmp
