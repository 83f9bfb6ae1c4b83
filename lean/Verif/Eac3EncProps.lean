import Verif.Eac3Enc
import Verif.Eac3EncSpec
import Verif.FrameEncProps

/-!
# SAMPLE-AES of E-AC-3: proofs
-/

namespace Verif.Eac3Enc

open Verif.Cenc (Cipher)
open Verif.Cbc Verif.CbcSpec Verif.FrameEnc
open Verif.Eac3EncSpec (Sync size last)

/-- One sync frame, and the chain after it. -/
def one (E : Cipher) (c F : List UInt8) : List UInt8 := FrameEnc.enc E c (F.length - F.length % 16) F

def nx (E : Cipher) (c F : List UInt8) : List UInt8 := (cbc E ((F.length - 16) / 16) c (mid (F.length - F.length % 16) F)).2

def all (E : Cipher) : List UInt8 → List (List UInt8) → List UInt8
  | _, [] => []
  | c, F :: r => one E c F ++ all E (nx E c F) r

theorem mid_len (F : List UInt8) : (mid (F.length - F.length % 16) F).length = 16 * ((F.length - 16) / 16) := by
  unfold mid
  rw [List.length_drop, List.length_take]
  omega

theorem nx_len {E : Cipher} {c : List UInt8} (hc : c.length = 16) (F : List UInt8) : (nx E c F).length = 16 :=
  (cbc_length E _ c _ hc (by rw [mid_len]; omega)).2

theorem syncSize_eq (h : List UInt8) : syncSize h = size h := by
  unfold syncSize size
  have := (h.getD 3 0).toNat_lt
  omega

/-- The state of the cipher is known if `H` holds. Where the filter is: `l` are the sync frames from the one that is being written on, `Q` is what was taken of it. -/
def Pos (E : Cipher) (H : Prop) (l : List (List UInt8)) (Q c O : List UInt8) (x : X) : Prop :=
  c.length = 16 ∧
  ((Q.length < 7 ∧ x.hdr = Q ∧ x.hl = 7 - Q.length ∧ x.left = l.flatten.length ∧ x.f.out = O ∧ (H → x.f.evp = Evp.init c)) ∨
   (∃ F r, l = F :: r ∧ 7 ≤ Q.length ∧ Q.length < F.length ∧ x.hl = 0 ∧ x.left = r.flatten.length ∧ x.sync = F.length - Q.length ∧
      FrameEnc.Inv E c (F.length - F.length % 16) O H Q x.f))

theorem getD_take {F : List UInt8} {n i : Nat} (h : i < n) : (F.take n).getD i 0 = F.getD i 0 := by
  simp only [List.getD_eq_getElem?_getD, List.getElem?_take_of_lt h]

theorem size_take {F : List UInt8} {n : Nat} (h : 4 ≤ n) : size (F.take n) = size F := by
  unfold size
  rw [getD_take (by omega), getD_take (by omega)]

theorem size_append {F t : List UInt8} (h : 4 ≤ F.length) : size (F ++ t) = size F := by
  have := size_take (F := F ++ t) h
  rw [List.take_left] at this
  exact this.symm

/-- The end of a sync frame. -/
theorem done_inv {E : Cipher} {H : Prop} {c O F : List UInt8} {s : S} (h : FrameEnc.Inv E c (F.length - F.length % 16) O H F s) : s.out = O ++ one E c F ∧ (H → s.evp = Evp.init (nx E c F)) := by
  refine ⟨h.out, fun hH => ?_⟩
  have := h.evp hH
  unfold At at this
  rw [this, mid_len, Nat.mul_div_cancel_left _ (by omega), List.drop_of_length_le (by rw [mid_len]; omega)]
  rfl

theorem header_ok {E : Cipher} {F c O : List UInt8} {r : List (List UInt8)} {x : X} {H : Prop} (hg : 32 ≤ F.length → H) (hc : c.length = 16) (hF : Sync F) (hr : ∀ G ∈ r, Sync G) (h1 : x.hdr = F.take 7) (h3 : x.left = F.length + r.flatten.length)
    (h4 : x.f.out = O) (h5 : H → x.f.evp = Evp.init c) :
    ∃ f, x.header E = .ok { x with left := r.flatten.length, sync := F.length - 7, f := f } ∧ FrameEnc.Inv E c (F.length - F.length % 16) O H (F.take 7) f := by
  have hsz : syncSize x.hdr = F.length := by rw [h1, syncSize_eq, size_take (by omega), hF.2.2.1]
  have hF8 := hF.2.2.2
  have hrl : r.flatten.length = 0 ∨ 8 ≤ r.flatten.length := by
    cases r with
    | nil => left; rfl
    | cons G r =>
      right
      have := (hr G (by simp)).2.2.2
      rw [List.flatten_cons, List.length_append]
      omega
  have h0 : FrameEnc.Inv E c (F.length - F.length % 16) O H [] (sub x.f F.length) := by
    refine ⟨fun h => hg (by omega), rfl, rfl, fun hH => ?_, ?_⟩
    · rw [mid_nil (Or.inr (by simp))]
      show At E c [] x.f.evp
      rw [h5 hH]
      exact at_init E c
    · show x.f.out = _
      rw [FrameEnc.enc, mid_nil (Or.inr (by simp)), outs_nil, h4]
      simp
  obtain ⟨f, e1, e2⟩ := FrameEnc.write_inv hc (d := F.take 7) h0
  rw [List.nil_append] at e2
  refine ⟨f, ?_, e2⟩
  unfold X.header
  rw [hsz, h3, Nat.add_sub_cancel_left, if_neg (by rw [h1, getD_take (by omega), getD_take (by omega), hF.1, hF.2.1]; simp), if_neg (by omega), if_neg (by omega), h1, e1, Res.bind_ok]

theorem loop_pos {E : Cipher} {H : Prop} : ∀ (n : Nat) (d t Q c O : List UInt8) (l : List (List UInt8)) (x : X), d.length < n → (∀ G ∈ l, Sync G) → (∀ G ∈ l, 32 ≤ G.length → H) → Pos E H l Q c O x → Q ++ (d ++ t) = l.flatten →
    ∃ l' Q' c' O' x', X.loop E n x d = .ok x' ∧ (∀ G ∈ l', Sync G) ∧ (∀ G ∈ l', 32 ≤ G.length → H) ∧ Pos E H l' Q' c' O' x' ∧ Q' ++ t = l'.flatten ∧ O' ++ all E c' l' = O ++ all E c l := by
  intro n
  induction n with
  | zero => intro d t Q c O l x hn; omega
  | succ n ih =>
    intro d t Q c O l x hn hl hg hp hd
    obtain ⟨hc, hp⟩ := hp
    rw [X.loop]
    by_cases hsh : d.length < x.hl
    · rw [if_pos hsh]
      rcases hp with ⟨p1, p2, p3, p4, p5, p6⟩ | ⟨F, r, q1, q2, q3, q4, q5, q6, q7⟩
      · refine ⟨l, Q ++ d, c, O, _, rfl, hl, hg, ⟨hc, Or.inl ⟨by rw [List.length_append]; omega, by simp only [p2], by simp only [List.length_append]; omega, p4, p5, p6⟩⟩, by rw [List.append_assoc]; exact hd, rfl⟩
      · omega
    · rw [if_neg hsh]
      -- the sync frame, after its header
      have key : ∃ F r y, l = F :: r ∧ (if x.hl > 0 then X.header E { x with hdr := x.hdr ++ d.take x.hl, hl := 0 } else .ok x) = .ok y ∧ y.hl = 0 ∧ y.left = r.flatten.length ∧
          (Q ++ d.take x.hl).length < F.length ∧ y.sync = F.length - (Q ++ d.take x.hl).length ∧ FrameEnc.Inv E c (F.length - F.length % 16) O H (Q ++ d.take x.hl) y.f := by
        rcases hp with ⟨p1, p2, p3, p4, p5, p6⟩ | ⟨F, r, q1, q2, q3, q4, q5, q6, q7⟩
        · cases l with
          | nil =>
            have := congrArg List.length hd
            simp only [List.length_append, List.flatten_nil, List.length_nil] at this
            omega
          | cons F r =>
            have hF := hl F (by simp)
            have hF8 := hF.2.2.2
            have hq : Q ++ d.take x.hl = F.take 7 := by
              have h7 := congrArg (List.take 7) hd
              rw [List.flatten_cons, List.take_append_of_le_length (l₁ := F) (by omega), ← List.append_assoc, List.take_append_of_le_length (l₁ := Q ++ d) (by rw [List.length_append]; omega), List.take_append,
                List.take_of_length_le (l := Q) (by omega), ← p3] at h7
              exact h7
            have hql : (Q ++ d.take x.hl).length = 7 := by rw [hq, List.length_take]; omega
            obtain ⟨f, e1, e2⟩ := header_ok (E := E) (x := { x with hdr := x.hdr ++ d.take x.hl, hl := 0 }) (O := O) (r := r) (hg F (by simp)) hc hF (fun G hG => hl G (by simp [hG])) (by simp only [p2]; exact hq)
              (by simp only [p4, List.flatten_cons, List.length_append]) p5 p6
            refine ⟨F, r, _, rfl, by rw [if_pos (by omega)]; exact e1, rfl, rfl, by omega, by rw [hql], by rw [hq]; exact e2⟩
        · refine ⟨F, r, x, q1, by rw [if_neg (by omega)], q4, q5, ?_, ?_, ?_⟩
          · rw [q4, List.take_zero, List.append_nil]; exact q3
          · rw [q4, List.take_zero, List.append_nil]; exact q6
          · rw [q4, List.take_zero, List.append_nil]; exact q7
      have hq7 : 7 ≤ (Q ++ d.take x.hl).length := by
        rcases hp with ⟨p1, p2, p3, p4, p5, p6⟩ | ⟨F, r, q1, q2, q3, q4, q5, q6, q7⟩
        · rw [List.length_append, List.length_take]; omega
        · rw [List.length_append]; omega
      obtain ⟨F, r, y, k1, k2, k3, k4, k5, k6, k7⟩ := key
      obtain ⟨q, hq⟩ : ∃ q, q = Q ++ d.take x.hl := ⟨_, rfl⟩
      obtain ⟨b, hb⟩ : ∃ b, b = d.drop x.hl := ⟨_, rfl⟩
      have hbl : b.length ≤ d.length := by rw [hb, List.length_drop]; omega
      have hd' : q ++ (b ++ t) = F ++ r.flatten := by
        rw [k1, List.flatten_cons] at hd
        rw [hq, hb, ← hd, List.append_assoc, ← List.append_assoc (List.take x.hl d), List.take_append_drop]
      rw [← hq] at k5 k6 k7 hq7
      rw [k2, Res.bind_ok, ← hb]
      obtain ⟨f, w1, w2⟩ := FrameEnc.write_inv hc (d := b.take y.sync) k7
      have hbd : y.body E b = .ok { y with f := f, sync := y.sync - (b.take y.sync).length } := by rw [X.body, w1, Res.bind_ok]
      rw [hbd, Res.bind_ok]
      have htl : (b.take y.sync).length = min y.sync b.length := List.length_take
      by_cases hm : y.sync - (b.take y.sync).length > 0
      · rw [if_pos hm]
        have hball : b.take y.sync = b := List.take_of_length_le (by omega)
        rw [hball] at w2 hm ⊢
        refine ⟨l, q ++ b, c, O, _, rfl, hl, hg, ⟨hc, Or.inr ⟨F, r, k1, by rw [List.length_append]; omega, by rw [List.length_append]; omega, k3, k4, by simp only [List.length_append]; omega, w2⟩⟩, ?_, rfl⟩
        rw [List.append_assoc, hd', k1, List.flatten_cons]
      · rw [if_neg hm]
        have hfull : q ++ b.take y.sync = F := by
          have h7 := congrArg (List.take F.length) hd'
          rw [List.take_left, ← List.append_assoc, List.take_append_of_le_length (l₁ := q ++ b) (by rw [List.length_append]; omega), List.take_append,
            List.take_of_length_le (l := q) (by omega), ← k6] at h7
          exact h7
        have hrest : b.drop y.sync ++ t = r.flatten := by
          rw [← List.take_append_drop y.sync b, List.append_assoc, ← List.append_assoc, hfull] at hd'
          exact List.append_cancel_left hd'
        rw [hfull] at w2
        obtain ⟨o1, o2⟩ := done_inv w2
        have hr : ∀ G ∈ r, Sync G := fun G hG => hl G (by rw [k1]; simp [hG])
        have hgr : ∀ G ∈ r, 32 ≤ G.length → H := fun G hG => hg G (by rw [k1]; simp [hG])
        have hpos : Pos E H r [] (nx E c F) (O ++ one E c F) { y with f := f, sync := y.sync - (b.take y.sync).length, hdr := [], hl := 7 } :=
          ⟨nx_len hc F, Or.inl ⟨by simp, rfl, rfl, k4, o1, o2⟩⟩
        have hsum : (O ++ one E c F) ++ all E (nx E c F) r = O ++ all E c l := by rw [k1, all, List.append_assoc]
        split
        · next hle =>
          rw [List.drop_of_length_le hle, List.nil_append] at hrest
          exact ⟨r, [], nx E c F, _, _, rfl, hr, hgr, hpos, by rw [List.nil_append]; exact hrest, hsum⟩
        · next hgt =>
          obtain ⟨l', Q', c', O', x', e1, e2, eg, e3, e4, e5⟩ := ih (b.drop y.sync) t [] (nx E c F) (O ++ one E c F) r _ (by rw [List.length_drop]; omega) hr hgr hpos (by rw [List.nil_append]; exact hrest)
          exact ⟨l', Q', c', O', x', e1, e2, eg, e3, e4, by rw [e5, hsum]⟩

theorem writes_pos {E : Cipher} {H : Prop} : ∀ (p : List (List UInt8)) (Q c O : List UInt8) (l : List (List UInt8)) (x : X), (∀ G ∈ l, Sync G) → (∀ G ∈ l, 32 ≤ G.length → H) → Pos E H l Q c O x → Q ++ p.flatten = l.flatten →
    ∃ x', x.writes E p = .ok x' ∧ x'.f.out = O ++ all E c l
  | [], Q, c, O, l, x, hl, _, hp, hd => by
    rw [List.flatten_nil, List.append_nil] at hd
    refine ⟨x, rfl, ?_⟩
    obtain ⟨-, ⟨p1, p2, p3, p4, p5, p6⟩ | ⟨F, r, q1, q2, q3, q4, q5, q6, q7⟩⟩ := hp
    · cases l with
      | nil => rw [all, List.append_nil]; exact p5
      | cons F r =>
        have := (hl F (by simp)).2.2.2
        rw [hd, List.flatten_cons, List.length_append] at p1
        omega
    · rw [hd, q1, List.flatten_cons, List.length_append] at q3
      omega
  | d :: p, Q, c, O, l, x, hl, hg, hp, hd => by
    obtain ⟨l', Q', c', O', x1, e1, e2, eg, e3, e4, e5⟩ := loop_pos (d.length + 1) d p.flatten Q c O l x (by omega) hl hg hp (by rw [← List.flatten_cons]; exact hd)
    obtain ⟨x2, g1, g2⟩ := writes_pos p Q' c' O' l' x1 e2 eg e3 e4
    exact ⟨x2, by rw [X.writes, e1, Res.bind_ok, g1], by rw [g2, e5]⟩

/-! ## Players -/

theorem cbc_last (E : Cipher) (k : Nat) (c d : List UInt8) (hc : c.length = 16) (h : 16 * (k + 1) ≤ d.length) : (cbc E (k + 1) c d).1.drop (16 * k) = (cbc E (k + 1) c d).2 := by
  have hl := (cbc_length E k c d hc (by omega)).1
  rw [cbc_add]
  simp only []
  rw [← hl, List.drop_left]
  simp [cbc]

theorem last_one {E : Cipher} {c : List UInt8} (hc : c.length = 16) (F : List UInt8) (hl : (one E c F).length = F.length) : last c (one E c F) = nx E c F := by
  unfold last nx
  rw [hl]
  have hml := mid_len F
  obtain ⟨k, hk⟩ : ∃ k, k = (F.length - 16) / 16 := ⟨_, rfl⟩
  rw [← hk] at hml ⊢
  cases k with
  | zero => rw [if_pos rfl]; rfl
  | succ k =>
    rw [if_neg (by omega), one, FrameEnc.enc]
    have ho : outs E c (mid (F.length - F.length % 16) F) = (cbc E (k + 1) c (mid (F.length - F.length % 16) F)).1 := by unfold outs; rw [hml, Nat.mul_div_cancel_left _ (by omega)]
    have hol : (cbc E (k + 1) c (mid (F.length - F.length % 16) F)).1.length = 16 * (k + 1) := (cbc_length E _ c _ hc (by omega)).1
    have hll := (cbc_length E (k + 1) c (mid (F.length - F.length % 16) F) hc (by omega)).2
    have htl : (F.take 16).length = 16 := by rw [List.length_take]; omega
    rw [ho, show 16 * (k + 1) = 16 + 16 * k by omega, ← List.drop_drop, List.drop_append_of_le_length (l₁ := F.take 16) (by omega), List.drop_of_length_le (l := F.take 16) (by omega), List.nil_append,
      List.drop_append_of_le_length (by omega), cbc_last E k c _ hc (by omega), List.take_append_of_le_length (by omega), List.take_of_length_le (by omega)]

theorem one_take {E : Cipher} {c F : List UInt8} : (one E c F).take 7 = F.take 7 := by
  unfold one FrameEnc.enc
  rcases Nat.lt_or_ge F.length 16 with h | h
  · have hx : 16 ≤ Nat.max 16 (F.length - F.length % 16) := Nat.le_max_left _ _
    rw [mid_nil (Or.inr (by omega)), outs_nil, List.drop_of_length_le (l := F) (by omega), List.append_nil, List.append_nil, List.take_take]
    rfl
  · rw [List.take_append_of_le_length (by rw [List.length_take]; omega), List.take_take]
    rfl

theorem all_play {E : Cipher} {D : List UInt8 → List UInt8} (hD : Undoes D E.enc) : ∀ (l : List (List UInt8)) (n : Nat) (c : List UInt8), c.length = 16 → (∀ G ∈ l, Sync G) → l.length < n →
    (all E c l).length = l.flatten.length ∧ Eac3EncSpec.play D n c (all E c l) = l.flatten
  | _, 0, _, _, _, h => by omega
  | [], n + 1, c, _, _, _ => ⟨rfl, by rw [Eac3EncSpec.play, all, if_pos rfl]; rfl⟩
  | F :: r, n + 1, c, hc, hl, hn => by
    have hF := hl F (by simp)
    obtain ⟨a1, a2⟩ := FrameEnc.enc_play hD hc F
    have a1' : (one E c F).length = F.length := a1
    obtain ⟨i1, i2⟩ := all_play hD r n (nx E c F) (nx_len hc F) (fun G hG => hl G (by simp [hG])) (by rw [List.length_cons] at hn; omega)
    have hs : size (all E c (F :: r)) = (one E c F).length := by
      rw [all, size_append (by have := hF.2.2.2; omega), ← size_take (n := 7) (by omega), one_take, size_take (by omega), a1', hF.2.2.1]
    refine ⟨by rw [all, List.length_append, a1', i1, List.flatten_cons, List.length_append], ?_⟩
    rw [Eac3EncSpec.play, hs, all, List.take_left, List.drop_left, last_one hc F a1', i2, if_neg, List.flatten_cons]
    · congr 1
    · intro h0
      have := congrArg List.length h0
      have h8 := hF.2.2.2
      rw [List.length_append, a1', List.length_nil] at this
      omega

theorem mem_len : ∀ (l : List (List UInt8)) {G : List UInt8}, G ∈ l → G.length ≤ l.flatten.length
  | F :: r, G, h => by
    rw [List.flatten_cons, List.length_append]
    rcases List.mem_cons.1 h with rfl | h
    · omega
    · have := mem_len r h
      omega

/-- C132: however the frame is cut, and whatever was encrypted before, the size does not change and a player gets the frame back. -/
theorem frame_play {E : Cipher} {D : List UInt8 → List UInt8} (hD : Undoes D E.enc) {iv : List UInt8} (hiv : iv.length = 16) {e : Evp} {l parts : List (List UInt8)} (hl : ∀ G ∈ l, Sync G) (hne : l ≠ [])
    (h : parts.flatten = l.flatten) : ∃ o, frame E iv e parts = .ok o ∧ o.length = l.flatten.length ∧ Eac3EncSpec.play D (l.length + 1) iv o = l.flatten := by
  have hp : Pos E (32 ≤ l.flatten.length) l [] iv [] ⟨[], 7, parts.flatten.length, 0, FrameEnc.start iv e parts.flatten.length⟩ := by
    refine ⟨hiv, Or.inl ⟨by simp, rfl, rfl, by rw [h], rfl, fun h32 => ?_⟩⟩
    unfold FrameEnc.start
    simp only []
    rw [h, if_pos (by omega)]
  obtain ⟨x, e1, e2⟩ := writes_pos parts [] iv [] l _ hl (fun G hG h32 => Nat.le_trans h32 (mem_len l hG)) hp (by rw [List.nil_append]; exact h)
  obtain ⟨a1, a2⟩ := all_play hD l (l.length + 1) iv hiv hl (by omega)
  rw [List.nil_append] at e2
  refine ⟨x.f.out, ?_, by rw [e2]; exact a1, by rw [e2]; exact a2⟩
  have h7 : 7 ≤ l.flatten.length := by
    cases l with
    | nil => exact absurd rfl hne
    | cons F r =>
      have := (hl F (by simp)).2.2.2
      rw [List.flatten_cons, List.length_append]
      omega
  rw [frame, start, if_neg (by rw [h]; omega), Res.bind_ok, e1, Res.map_ok]

end Verif.Eac3Enc
