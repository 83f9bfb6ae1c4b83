import Verif.Cbcs
import Verif.CbcsSpec
import Verif.CbcProps

/-!
# The scheme cbcs: proofs
-/

namespace Verif.Cbcs

open Verif.Cenc (Cipher WB parseBe beN)
open Verif.Cbc (Evp cbc)
open Verif.CbcSpec (dec Undoes)
open Verif.CbcsSpec

/-! ## The pattern -/

def pat (E : Cipher) : Nat → List UInt8 → List UInt8 → List UInt8
  | 0, _, d => d
  | k + 1, c, d => if d.length < 16 then d else E.enc (Cbc.xorB (d.take 16) c) ++ (d.drop 16).take 144 ++ pat E k (E.enc (Cbc.xorB (d.take 16) c)) (d.drop 160)

theorem pat_length {E : Cipher} : ∀ (k : Nat) (c d : List UInt8), c.length = 16 → (pat E k c d).length = d.length
  | 0, _, _, _ => rfl
  | k + 1, c, d, hc => by
    unfold pat
    by_cases h : d.length < 16
    · rw [if_pos h]
    · rw [if_neg h]
      have h1 := E.len _ (Cbc.xorB_length (a := d.take 16) (by rw [List.length_take]; omega) hc)
      rw [List.length_append, List.length_append, h1, pat_length k _ _ h1, List.length_take, List.length_drop, List.length_drop]
      omega

theorem unpat_pat {E : Cipher} {D : List UInt8 → List UInt8} (hD : Undoes D E.enc) : ∀ (k : Nat) (c d : List UInt8), c.length = 16 → unpat D k c (pat E k c d) = d
  | 0, _, _, _ => rfl
  | k + 1, c, d, hc => by
    have hl := pat_length (E := E) (k + 1) c d hc
    unfold unpat
    rw [hl]
    unfold pat
    by_cases h : d.length < 16
    · rw [if_pos h, if_pos h]
    · rw [if_neg h, if_neg h]
      have ht : (d.take 16).length = 16 := by rw [List.length_take]; omega
      have h0 := Cbc.xorB_length ht hc
      have h1 := E.len _ h0
      have ih := unpat_pat hD k (E.enc (Cbc.xorB (d.take 16) c)) (d.drop 160) h1
      obtain ⟨b, hb⟩ : ∃ b, b = E.enc (Cbc.xorB (d.take 16) c) := ⟨_, rfl⟩
      have hDb : D b = Cbc.xorB (d.take 16) c := by rw [hb, hD _ h0]
      rw [← hb] at h1 ih ⊢
      have e1 : (b ++ (d.drop 16).take 144 ++ pat E k b (d.drop 160)).take 16 = b := by
        rw [List.append_assoc, List.take_append_of_le_length (by omega), List.take_of_length_le (by omega)]
      have e2 : (b ++ (d.drop 16).take 144 ++ pat E k b (d.drop 160)).drop 16 = (d.drop 16).take 144 ++ pat E k b (d.drop 160) := by
        rw [List.append_assoc, List.drop_append_of_le_length (by omega), List.drop_of_length_le (by omega), List.nil_append]
      by_cases hs : (d.drop 16).length < 144
      · have h160 : d.drop 160 = [] := List.drop_of_length_le (by rw [List.length_drop] at hs; omega)
        have hp : pat E k b [] = [] := List.eq_nil_of_length_eq_zero (by rw [pat_length k b [] h1]; rfl)
        rw [h160, hp, List.append_nil] at e1 e2 ⊢
        rw [e1, e2, hDb, Cbc.xor_back (by omega), List.drop_of_length_le (l := b ++ _) (by rw [List.length_append, List.length_take, h1]; omega)]
        rw [h160, hp] at ih
        rw [ih, List.append_nil, List.append_nil, List.take_of_length_le (l := d.drop 16) (by omega), List.take_of_length_le (l := d.drop 16) (by omega), List.take_append_drop]
      · have hm : ((d.drop 16).take 144).length = 144 := by rw [List.length_take]; omega
        rw [e1, e2, hDb, Cbc.xor_back (by omega), List.take_append_of_le_length (by omega), List.take_of_length_le (l := (d.drop 16).take 144) (by omega),
          List.drop_append_of_le_length (by rw [List.length_append]; omega), List.drop_of_length_le (l := b ++ _) (by rw [List.length_append]; omega), List.nil_append, ih, List.append_assoc,
          show d.drop 160 = (d.drop 16).drop 144 by rw [List.drop_drop], List.take_append_drop, List.take_append_drop]

/-- What is to come when `next` bytes are left at the next block. -/
def todo (E : Cipher) (c x : List UInt8) (next : Nat) : List UInt8 := if next = 0 then x else x.take (x.length - next) ++ pat E next c (x.drop (x.length - next))

theorem pat_more {E : Cipher} : ∀ (k j : Nat) (c d : List UInt8), d.length ≤ k → d.length ≤ j → pat E k c d = pat E j c d
  | 0, 0, _, _, _, _ => rfl
  | 0, j + 1, c, d, h, _ => by rw [pat, pat, if_pos (by omega)]
  | k + 1, 0, c, d, _, h => by rw [pat, pat, if_pos (by omega)]
  | k + 1, j + 1, c, d, h1, h2 => by
    unfold pat
    split
    · rfl
    · rw [pat_more k j _ (d.drop 160) (by rw [List.length_drop]; omega) (by rw [List.length_drop]; omega)]

theorem pat_step {E : Cipher} {c x : List UInt8} {next : Nat} (hx : x.length = next) (h : 16 ≤ next) :
    pat E next c x = E.enc (Cbc.xorB (x.take 16) c) ++ todo E (E.enc (Cbc.xorB (x.take 16) c)) (x.drop 16) (nextLeft next) := by
  obtain ⟨m, rfl⟩ : ∃ m, next = m + 1 := ⟨next - 1, by omega⟩
  unfold pat
  rw [if_neg (by omega), List.append_assoc]
  congr 1
  obtain ⟨b, hb⟩ : ∃ b, b = E.enc (Cbc.xorB (x.take 16) c) := ⟨_, rfl⟩
  rw [← hb]
  unfold todo nextLeft
  by_cases h2 : m + 1 ≥ 176
  · rw [if_pos h2, if_neg (by omega), List.length_drop, hx, show m + 1 - 16 - (m + 1 - 160) = 144 by omega, List.drop_drop]
    rw [pat_more m (m + 1 - 160) b (x.drop 160) (by rw [List.length_drop]; omega) (by rw [List.length_drop]; omega)]
  · rw [if_neg h2, if_pos rfl]
    have : pat E m b (x.drop 160) = x.drop 160 := by
      cases m with
      | zero => rfl
      | succ m => rw [pat, if_pos (by rw [List.length_drop]; omega)]
    rw [this, show x.drop 160 = (x.drop 16).drop 144 by rw [List.drop_drop], List.take_append_drop]

/-! ## Writing -/

theorem map_ok {α β : Type} {x : Res α} {f : α → β} {y : α} (h : x = .ok y) : x.map f = .ok (f y) := by rw [h]; rfl

/-- A write of encrypted data: the room is enough. -/
theorem writeEnc_spec {P : Par} {e : Evp} {wb : WB} {d : List UInt8} (hb : (d.length + 15) / 16 * 16 ≤ P.bs) (hp : e.pend.length < 16) (hc : e.chain.length = 16) :
    ∃ wb', writeEnc P e wb d = .ok ((e.update P.E d).1, wb') ∧ wb'.all = wb.all ++ (e.update P.E d).2 ∧ wb'.Ok := by
  obtain ⟨w1, r1, r2, r3⟩ := WB.room_spec (s := wb) hb
  have hl : (e.update P.E d).2.length = 16 * ((e.pend ++ d).length / 16) := (Cbc.cbc_length P.E _ e.chain (e.pend ++ d) hc (by omega)).1
  obtain ⟨w2, t1, t2, t3⟩ := WB.put_spec (s := w1) (d := (e.update P.E d).2) (by
    rw [hl, List.length_append]
    omega)
  refine ⟨w2, ?_, by rw [t2, r2], t3⟩
  unfold writeEnc
  rw [r1, Res.bind_ok, t1, Res.bind_ok]

/-- A block of which a part was there. -/
theorem update_block {E : Cipher} {c p d : List UInt8} (h : p.length + d.length = 16) :
    (Evp.update E ⟨c, p⟩ d) = (⟨E.enc (Cbc.xorB (p ++ d) c), []⟩, E.enc (Cbc.xorB (p ++ d) c)) := by
  have h1 : (p ++ d).length / 16 = 1 := by rw [List.length_append, h]
  unfold Evp.update
  simp only [h1, cbc]
  rw [List.take_of_length_le (by rw [List.length_append]; omega), List.append_nil, List.drop_of_length_le (by rw [List.length_append]; omega)]

theorem update_part {E : Cipher} {c p d : List UInt8} (h : p.length + d.length < 16) : (Evp.update E ⟨c, p⟩ d) = (⟨c, p ++ d⟩, []) := by
  have h1 : (p ++ d).length / 16 = 0 := by rw [List.length_append]; omega
  unfold Evp.update
  simp only [h1, cbc]
  rfl

theorem todo_zero (E : Cipher) (c x : List UInt8) : todo E c x 0 = x := by simp [todo]

theorem encLoop_spec {P : Par} (hb : 16 ≤ P.bs) : ∀ (k : Nat) (c p d : List UInt8) (wb : WB) (next : Nat), c.length = 16 → p.length < 16 → wb.Ok → d.length < k →
    (p = [] ∧ next ≤ d.length ∨ p.length + d.length = next) → (next = 0 ∨ 16 ≤ next) → (p ≠ [] → next ≠ 0) →
    ∃ wb', encLoop P k ⟨c, p⟩ wb d next = .ok wb' ∧ wb'.all = wb.all ++ todo P.E c (p ++ d) next ∧ wb'.Ok
  | 0, _, _, _, _, _, _, _, _, h, _, _, _ => by omega
  | k + 1, c, p, d, wb, next, hc, hp, hw, hk, hpd, hn, hp0 => by
    -- the part that comes after the block
    have tail : ∀ (c' d' : List UInt8) (w1 : WB) (n' : Nat), c'.length = 16 → w1.Ok → n' ≤ d'.length → (n' = 0 ∨ 16 ≤ n') → (n' < d.length ∨ n' = 0) →
        ∃ wb', (if d'.length < n' then (.ub : Res WB) else w1.write P.bs (d'.take (d'.length - n')) >>= fun wb =>
          if n' = 0 then .ok wb else encLoop P k ⟨c', []⟩ wb (d'.drop (d'.length - n')) n') = .ok wb' ∧ wb'.all = w1.all ++ todo P.E c' d' n' ∧ wb'.Ok := by
      intro c' d' w1 n' hc' hw1 hle hn' hlt
      obtain ⟨w2, s1, s2, s3⟩ := WB.write_spec (bs := P.bs) (by omega) hw1 (d'.take (d'.length - n'))
      rw [if_neg (by omega), s1, Res.bind_ok]
      by_cases h0 : n' = 0
      · rw [if_pos h0]
        subst h0
        refine ⟨w2, rfl, ?_, s3⟩
        rw [s2, todo_zero, Nat.sub_zero, List.take_length]
      · rw [if_neg h0]
        have hl : (d'.drop (d'.length - n')).length = n' := by rw [List.length_drop]; omega
        obtain ⟨w3, u1, u2, u3⟩ := encLoop_spec hb k c' [] (d'.drop (d'.length - n')) w2 n' hc' (by simp) s3 (by omega) (Or.inl ⟨rfl, by omega⟩) hn' (fun h => absurd rfl h)
        refine ⟨w3, u1, ?_, u3⟩
        rw [u2, s2, List.append_assoc, List.nil_append]
        congr 1
        unfold todo
        rw [if_neg h0, if_neg h0, hl, Nat.sub_self, List.take_zero, List.nil_append, List.drop_zero]
    unfold encLoop encPart
    by_cases h1 : d.length > 0 ∧ d.length ≤ next
    · have hlen : p.length + d.length = next := by
        rcases hpd with ⟨rfl, hh⟩ | hh
        · simp only [List.length_nil]; omega
        · exact hh
      have hn16 : 16 ≤ next := by omega
      rw [if_pos h1, if_neg (by omega)]
      have hw16 : d.length - (next - 16) = 16 - p.length := by omega
      rw [hw16]
      have htl : (d.take (16 - p.length)).length = 16 - p.length := by rw [List.length_take]; omega
      obtain ⟨w1, e1, e2, e3⟩ := writeEnc_spec (P := P) (e := ⟨c, p⟩) (wb := wb) (d := d.take (16 - p.length)) (by rw [htl]; omega) hp hc
      rw [update_block (by rw [htl]; omega)] at e1 e2
      obtain ⟨b, hbb⟩ : ∃ b, b = P.E.enc (Cbc.xorB (p ++ d.take (16 - p.length)) c) := ⟨_, rfl⟩
      have hpt : (p ++ d).take 16 = p ++ d.take (16 - p.length) := by
        rw [List.take_append, List.take_of_length_le (by omega)]
      have hpdr : (p ++ d).drop 16 = d.drop (16 - p.length) := by
        rw [List.drop_append, List.drop_of_length_le (by omega), List.nil_append]
      have hbl : b.length = 16 := by
        rw [hbb]
        exact P.E.len _ (Cbc.xorB_length (by rw [List.length_append, htl]; omega) hc)
      rw [← hbb] at e1 e2
      rw [e1, Res.map_ok, Res.bind_ok]
      simp only []
      have hnl : nextLeft next ≤ (d.drop (16 - p.length)).length ∧ (nextLeft next = 0 ∨ 16 ≤ nextLeft next) ∧ (nextLeft next < d.length ∨ nextLeft next = 0) := by
        unfold nextLeft
        rw [List.length_drop]
        split <;> omega
      obtain ⟨w2, t1, t2, t3⟩ := tail b (d.drop (16 - p.length)) w1 (nextLeft next) hbl e3 hnl.1 hnl.2.1 hnl.2.2
      refine ⟨w2, t1, ?_, t3⟩
      rw [t2, e2, List.append_assoc]
      congr 1
      have hxl : (p ++ d).length = next := by rw [List.length_append]; exact hlen
      have hps := pat_step (E := P.E) (c := c) hxl hn16
      unfold todo at hps ⊢
      rw [hpt, hpdr, ← hbb] at hps
      rw [if_neg (show ¬ next = 0 by omega), hxl, Nat.sub_self, List.take_zero, List.nil_append, List.drop_zero, hps]
    · rw [if_neg h1, Res.bind_ok]
      simp only []
      have hpe : p = [] := by
        rcases hpd with ⟨h, -⟩ | hh
        · exact h
        · by_cases hpn : p = []
          · exact hpn
          · exfalso
            have := hp0 hpn
            have hp1 : 0 < p.length := List.length_pos_iff.2 hpn
            omega
      subst hpe
      have hle : next ≤ d.length := by
        rcases hpd with ⟨-, h⟩ | hh
        · exact h
        · simp at hh; omega
      obtain ⟨w2, t1, t2, t3⟩ := tail c d wb next hc hw hle hn (by omega)
      exact ⟨w2, t1, by rw [t2, List.nil_append], t3⟩

/-! ## Units -/

def toOpt {α : Type} : Res α → Option α
  | .ok x => some x
  | _ => none

theorem copyPart_spec {P : Par} (hb : 0 < P.bs) {wb : WB} (hw : wb.Ok) (d : List UInt8) (more : Bool) :
    ∃ wb', copyPart P wb d more = .ok (wb', decide (d.length = 0 ∧ more = false)) ∧ wb'.all = wb.all ++ d ∧ wb'.Ok := by
  unfold copyPart
  by_cases h : d.length = 0 ∧ more = false
  · rw [if_pos h]
    refine ⟨wb, by simp [h], ?_, hw⟩
    rw [List.eq_nil_of_length_eq_zero h.1, List.append_nil]
  · rw [if_neg h]
    obtain ⟨w, s1, s2, s3⟩ := WB.write_spec hb hw d
    exact ⟨w, by rw [s1, Res.map_ok, decide_eq_false h], s2, s3⟩

theorem slicePart_spec {P : Par} (hb : 16 ≤ P.bs) (hi : P.iv.length = 16) {wb : WB} (hw : wb.Ok) {d : List UInt8} {h b : Nat} (more : Bool) (hbd : b ≤ d.length) (hhb : h ≤ b) (hb0 : 0 < b) (h127 : b ≤ 127)
    (hall : b = 127 ∨ b = d.length) :
    ∃ wb', slicePart P wb d h b more = .ok (wb', decide (d.length < h + 16 ∧ b = d.length ∧ more = false)) ∧
      wb'.all = wb.all ++ (d.take h ++ pat P.E (d.length - h) P.iv (d.drop h)) ∧ wb'.Ok := by
  unfold slicePart
  by_cases h1 : d.length < h + 16
  · rw [if_pos h1]
    obtain ⟨w1, s1, s2, s3⟩ := WB.write_spec (bs := P.bs) (by omega) hw (d.take b)
    obtain ⟨w2, c1, c2, c3⟩ := copyPart_spec (P := P) (by omega) s3 (d.drop b) more
    rw [s1, Res.bind_ok]
    refine ⟨w2, ?_, ?_, c3⟩
    · rw [c1]
      congr 2
      rw [List.length_drop]
      exact decide_eq_decide.2 ⟨fun hh => ⟨h1, by omega, hh.2⟩, fun hh => ⟨by omega, hh.2.2⟩⟩
    · rw [c2, s2, List.append_assoc, List.take_append_drop]
      have : pat P.E (d.length - h) P.iv (d.drop h) = d.drop h := by
        cases hdh : d.length - h with
        | zero => rfl
        | succ m => rw [pat, if_pos (by rw [List.length_drop]; omega)]
      rw [this, List.take_append_drop]
  · rw [if_neg h1]
    obtain ⟨w1, s1, s2, s3⟩ := WB.write_spec (bs := P.bs) (by omega) hw (d.take h)
    rw [s1, Res.bind_ok]
    have hfl : decide (d.length < h + 16 ∧ b = d.length ∧ more = false) = false := by simp [h1]
    rw [hfl]
    have hdl : (d.drop h).length = d.length - h := List.length_drop
    have hps := pat_step (E := P.E) (c := P.iv) hdl (by omega)
    rw [List.drop_drop] at hps
    by_cases h16 : 16 ≤ b - h
    · rw [show min 16 (b - h) = 16 by omega, if_pos h16]
      simp only [if_pos h16]
      have htl : ((d.drop h).take 16).length = 16 := by rw [List.length_take]; omega
      obtain ⟨w2, e1, e2, e3⟩ := writeEnc_spec (P := P) (e := Evp.init P.iv) (wb := w1) (d := (d.drop h).take 16) (by rw [htl]; omega) (by simp [Evp.init]) hi
      unfold Evp.init at e1 e2
      rw [update_block (by rw [htl]; rfl), List.nil_append] at e1 e2
      obtain ⟨bl, hbl⟩ : ∃ bl, bl = P.E.enc (Cbc.xorB ((d.drop h).take 16) P.iv) := ⟨_, rfl⟩
      have hbll : bl.length = 16 := by rw [hbl]; exact P.E.len _ (Cbc.xorB_length htl hi)
      rw [← hbl] at e1 e2 hps
      unfold Evp.init
      rw [e1, Res.bind_ok]
      simp only []
      obtain ⟨w3, f1, f2, f3⟩ := WB.write_spec (bs := P.bs) (by omega) e3 ((d.take b).drop (h + 16))
      rw [f1, Res.bind_ok]
      have hnl : nextLeft (d.length - h) ≤ (d.drop b).length ∧ (nextLeft (d.length - h) = 0 ∨ 16 ≤ nextLeft (d.length - h)) := by
        unfold nextLeft
        rw [List.length_drop]
        split <;> omega
      obtain ⟨w4, g1, g2, g3⟩ := encLoop_spec hb (d.length + 1) bl [] (d.drop b) w3 (nextLeft (d.length - h)) hbll (by simp) f3 (by rw [List.length_drop]; omega) (Or.inl ⟨rfl, hnl.1⟩) hnl.2
        (fun hh => absurd rfl hh)
      rw [g1, Res.map_ok]
      refine ⟨w4, rfl, ?_, g3⟩
      rw [g2, f2, e2, s2, hps, List.nil_append]
      simp only [List.append_assoc]
      congr 2
      congr 1
      -- the bytes of the header buffer are clear
      have hsplit : d.drop (h + 16) = (d.take b).drop (h + 16) ++ d.drop b := by
        conv => lhs; rw [← List.take_append_drop b d]
        rw [List.drop_append_of_le_length (by rw [List.length_take]; omega)]
      have hsl : ((d.take b).drop (h + 16)).length = b - (h + 16) := by rw [List.length_drop, List.length_take]; omega
      rw [hsplit]
      unfold todo
      by_cases hz : nextLeft (d.length - h) = 0
      · rw [if_pos hz, if_pos hz]
      · rw [if_neg hz, if_neg hz]
        have hq : ((d.take b).drop (h + 16) ++ d.drop b).length - nextLeft (d.length - h) = (b - (h + 16)) + ((d.drop b).length - nextLeft (d.length - h)) := by
          rw [List.length_append, hsl]
          omega
        rw [hq, List.take_append, List.drop_append, hsl, Nat.add_sub_cancel_left, List.take_of_length_le (l := (d.take b).drop (h + 16)) (by omega),
          List.drop_of_length_le (l := (d.take b).drop (h + 16)) (by omega), List.nil_append, List.append_assoc]
    · have hb127 : b = 127 := by omega
      rw [show min 16 (b - h) = b - h by omega, if_neg h16]
      simp only [if_neg h16]
      have htl : ((d.drop h).take (b - h)).length = b - h := by rw [List.length_take]; omega
      obtain ⟨w2, e1, e2, e3⟩ := writeEnc_spec (P := P) (e := Evp.init P.iv) (wb := w1) (d := (d.drop h).take (b - h)) (by rw [htl]; omega) (by simp [Evp.init]) hi
      unfold Evp.init at e1 e2
      rw [update_part (by rw [htl, List.length_nil]; omega), List.nil_append] at e1 e2
      unfold Evp.init
      rw [e1, Res.bind_ok]
      simp only []
      rw [Res.bind_ok]
      obtain ⟨w4, g1, g2, g3⟩ := encLoop_spec hb (d.length + 1) P.iv ((d.drop h).take (b - h)) (d.drop b) w2 (d.length - h) hi (by omega) e3 (by rw [List.length_drop]; omega)
        (Or.inr (by rw [htl, List.length_drop]; omega)) (by omega) (fun _ => by omega)
      rw [g1, Res.map_ok]
      refine ⟨w4, rfl, ?_, g3⟩
      rw [g2, e2, s2, List.append_nil, List.append_assoc]
      congr 2
      have hj : (d.drop h).take (b - h) ++ d.drop b = d.drop h := by
        conv => rhs; rw [← List.take_append_drop (b - h) (d.drop h)]
        rw [List.drop_drop, show h + (b - h) = b by omega]
      rw [hj]
      unfold todo
      rw [if_neg (by omega), hdl, Nat.sub_self, List.take_zero, List.nil_append, List.drop_zero]

end Verif.Cbcs
