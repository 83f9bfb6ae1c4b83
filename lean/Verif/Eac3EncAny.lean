import Verif.Eac3EncProps

/-!
# SAMPLE-AES of E-AC-3: any data
-/

namespace Verif.Eac3Enc

open Verif.Cenc (Cipher)
open Verif.Cbc Verif.CbcSpec Verif.FrameEnc
open Verif.Eac3EncSpec (Sync size last)

/-- Where the filter is, with any data: `Q` was taken of a sync frame, `n` bytes are left with those of `Q`, of a frame of `T`. -/
def Any (E : Cipher) (T n : Nat) (Q : List UInt8) (x : X) : Prop :=
  n ≤ T ∧ ∃ c O, c.length = 16 ∧
  ((Q.length < 7 ∧ x.hdr = Q ∧ x.hl = 7 - Q.length ∧ x.left = n ∧ (n = 0 ∨ 7 ≤ n) ∧ (32 ≤ T → x.f.evp = Evp.init c)) ∨
   (7 ≤ Q.length ∧ Q.length < size Q ∧ size Q ≤ n ∧ Q.getD 0 0 = 0x0b ∧ Q.getD 1 0 = 0x77 ∧ x.hl = 0 ∧ x.left = n - size Q ∧ (n - size Q = 0 ∨ 7 ≤ n - size Q) ∧ x.sync = size Q - Q.length ∧
      FrameEnc.Inv E c (size Q - size Q % 16) O (32 ≤ T) Q x.f))

/-- A header is refused, or a sync frame begins. -/
theorem header_any {E : Cipher} {T : Nat} {c : List UInt8} {x : X} (hT : x.left ≤ T) (hc : c.length = 16) (h7 : x.hdr.length = 7) (h5 : 32 ≤ T → x.f.evp = Evp.init c) (hx : x.hl = 0) :
    x.header E = .err ∨ ∃ y, x.header E = .ok y ∧ Any E T x.left x.hdr y ∧ y.hl = 0 := by
  unfold X.header
  rw [syncSize_eq]
  by_cases c1 : x.hdr.getD 0 0 ≠ 0x0b ∨ x.hdr.getD 1 0 ≠ 0x77
  · left; rw [if_pos c1]
  rw [if_neg c1]
  by_cases c2 : size x.hdr < 7 ∨ size x.hdr > x.left
  · left; rw [if_pos c2]
  rw [if_neg c2]
  by_cases c3 : x.left - size x.hdr > 0 ∧ x.left - size x.hdr < 7
  · left; rw [if_pos c3]
  rw [if_neg c3]
  right
  have hev : 8 ≤ size x.hdr := by
    have : size x.hdr % 2 = 0 := by unfold size; omega
    omega
  have h0 : FrameEnc.Inv E c (size x.hdr - size x.hdr % 16) x.f.out (32 ≤ T) [] (sub x.f (size x.hdr)) := by
    refine ⟨fun h => by omega, rfl, rfl, fun hH => ?_, ?_⟩
    · rw [mid_nil (Or.inr (by simp))]
      show At E c [] x.f.evp
      rw [h5 hH]
      exact at_init E c
    · show x.f.out = _
      rw [FrameEnc.enc, mid_nil (Or.inr (by simp)), outs_nil]
      simp
  obtain ⟨f, e1, e2⟩ := FrameEnc.write_inv hc (d := x.hdr) h0
  rw [List.nil_append] at e2
  have hm0 : x.hdr.getD 0 0 = 0x0b := Classical.byContradiction fun h => c1 (Or.inl h)
  have hm1 : x.hdr.getD 1 0 = 0x77 := Classical.byContradiction fun h => c1 (Or.inr h)
  refine ⟨{ x with left := x.left - size x.hdr, sync := size x.hdr - 7, f := f }, by rw [e1, Res.bind_ok], ⟨hT, c, x.f.out, hc, Or.inr ⟨by omega, by omega, by omega, hm0, hm1, hx, rfl, by omega, by simp only []; omega, e2⟩⟩, hx⟩

theorem getD_append {a b : List UInt8} {i : Nat} (h : i < a.length) : (a ++ b).getD i 0 = a.getD i 0 := by
  simp only [List.getD_eq_getElem?_getD, List.getElem?_append_left h]

theorem loop_any {E : Cipher} {T : Nat} : ∀ (k : Nat) (d Q : List UInt8) (n : Nat) (x : X), d.length < k → Any E T n Q x → Q.length + d.length ≤ n →
    X.loop E k x d = .err ∨ ∃ (A : List (List UInt8)) (Q' : List UInt8) (n' : Nat) (x' : X), X.loop E k x d = .ok x' ∧ (∀ G ∈ A, Sync G) ∧ Any E T n' Q' x' ∧ A.flatten ++ Q' = Q ++ d ∧ n = n' + A.flatten.length := by
  intro k
  induction k with
  | zero => intro d Q n x hk; omega
  | succ k ih =>
    intro d Q n x hk hp hn
    rw [X.loop]
    by_cases hsh : d.length < x.hl
    · rw [if_pos hsh]
      right
      obtain ⟨hT, c, O, hc, ⟨p1, p2, p3, p4, p5, p6⟩ | ⟨q1, q2, q3, q4, q5, q6, q7⟩⟩ := hp
      · exact ⟨[], Q ++ d, n, _, rfl, by simp, ⟨hT, c, O, hc, Or.inl ⟨by rw [List.length_append]; omega, by simp only [p2], by simp only [List.length_append]; omega, p4, p5, p6⟩⟩, by simp, by simp⟩
      · omega
    · rw [if_neg hsh]
      have key : (if x.hl > 0 then X.header E { x with hdr := x.hdr ++ d.take x.hl, hl := 0 } else .ok x) = .err ∨
          ∃ y, (if x.hl > 0 then X.header E { x with hdr := x.hdr ++ d.take x.hl, hl := 0 } else .ok x) = .ok y ∧ Any E T n (Q ++ d.take x.hl) y ∧ y.hl = 0 := by
        obtain ⟨hT, c, O, hc, ⟨p1, p2, p3, p4, p5, p6⟩ | ⟨q1, q2, q3, q4, q5, q6, q7⟩⟩ := id hp
        · rw [if_pos (by omega)]
          have := header_any (E := E) (T := T) (x := { x with hdr := x.hdr ++ d.take x.hl, hl := 0 }) (by simp only [p4]; exact hT) hc (by simp only [List.length_append, List.length_take, p2]; omega) p6 rfl
          simp only [p4] at this
          rw [p2] at this ⊢
          rw [p4]
          exact this
        · right
          rw [if_neg (by omega), q6, List.take_zero, List.append_nil]
          exact ⟨x, rfl, hp, q6⟩
      rcases key with key | ⟨y, k2, hy, hy0⟩
      · left; rw [key, Res.bind_err]
      obtain ⟨q, hq⟩ : ∃ q, q = Q ++ d.take x.hl := ⟨_, rfl⟩
      obtain ⟨b, hb⟩ : ∃ b, b = d.drop x.hl := ⟨_, rfl⟩
      have hbl : b.length ≤ d.length := by rw [hb, List.length_drop]; omega
      have hqb : q ++ b = Q ++ d := by rw [hq, hb, List.append_assoc, List.take_append_drop]
      have hqbl : q.length + b.length ≤ n := by
        have := congrArg List.length hqb
        rw [List.length_append, List.length_append] at this
        omega
      rw [k2, Res.bind_ok, ← hb]
      rw [← hq] at hy
      obtain ⟨hT, c, O, hc, ⟨p1, p2, p3, p4, p5, p6⟩ | ⟨q1, q2, q3, q4, q5, q6, q7, q8, q9, q10⟩⟩ := hy
      · omega
      obtain ⟨f, w1, w2⟩ := FrameEnc.write_inv hc (d := b.take y.sync) q10
      have hbd : y.body E b = .ok { y with f := f, sync := y.sync - (b.take y.sync).length } := by rw [X.body, w1, Res.bind_ok]
      rw [hbd, Res.bind_ok]
      have htl : (b.take y.sync).length = min y.sync b.length := List.length_take
      have hsz : ∀ t, size (q ++ t) = size q := fun t => size_append (by omega)
      have hg0 : ∀ t, (q ++ t).getD 0 0 = 0x0b := fun t => by rw [getD_append (by omega)]; exact q4
      have hg1 : ∀ t, (q ++ t).getD 1 0 = 0x77 := fun t => by rw [getD_append (by omega)]; exact q5
      by_cases hm : y.sync - (b.take y.sync).length > 0
      · rw [if_pos hm]
        right
        have hball : b.take y.sync = b := List.take_of_length_le (by omega)
        rw [hball] at w2 hm ⊢
        refine ⟨[], q ++ b, n, _, rfl, by simp, ⟨hT, c, O, hc, Or.inr ⟨by rw [List.length_append]; omega, by rw [hsz, List.length_append]; omega, by rw [hsz]; omega, hg0 b, hg1 b, q6, by rw [hsz]; exact q7,
          by rw [hsz]; exact q8, by rw [hsz, List.length_append]; simp only []; omega, by rw [hsz]; exact w2⟩⟩, by rw [List.flatten_nil, List.nil_append]; exact hqb, by simp⟩
      · rw [if_neg hm]
        obtain ⟨F, hF⟩ : ∃ F, F = q ++ b.take y.sync := ⟨_, rfl⟩
        have hFl : F.length = size q := by rw [hF, List.length_append]; omega
        have hsync : Sync F := ⟨by rw [hF]; exact hg0 _, by rw [hF]; exact hg1 _, by rw [hFl, hF, hsz], by omega⟩
        rw [← hF, ← hFl] at w2
        obtain ⟨-, o2⟩ := done_inv w2
        have hAny : Any E T (n - F.length) [] { y with f := f, sync := y.sync - (b.take y.sync).length, hdr := [], hl := 7 } :=
          ⟨by omega, nx E c F, O, nx_len hc F, Or.inl ⟨by simp, rfl, rfl, by rw [hFl]; exact q7, by rw [hFl]; exact q8, o2⟩⟩
        have hcat : F ++ b.drop y.sync = Q ++ d := by rw [hF, List.append_assoc, List.take_append_drop]; exact hqb
        split
        · next hle =>
          right
          rw [List.drop_of_length_le hle, List.append_nil] at hcat
          exact ⟨[F], [], n - F.length, _, rfl, by simpa using hsync, hAny, by simpa using hcat, by rw [List.flatten_singleton]; omega⟩
        · next hgt =>
          rcases ih (b.drop y.sync) [] (n - F.length) _ (by rw [List.length_drop]; omega) hAny (by rw [List.length_nil, List.length_drop]; omega) with e0 | ⟨A, Q', n', x', e1, e2, e3, e4, e5⟩
          · left; exact e0
          · right
            refine ⟨F :: A, Q', n', x', e1, ?_, e3, ?_, ?_⟩
            · intro G hG
              rcases List.mem_cons.1 hG with rfl | hG
              · exact hsync
              · exact e2 G hG
            · rw [List.flatten_cons, List.append_assoc, e4, List.nil_append]; exact hcat
            · rw [List.flatten_cons, List.length_append]; omega

theorem writes_any {E : Cipher} {T : Nat} : ∀ (p : List (List UInt8)) (Q : List UInt8) (n : Nat) (x : X), Any E T n Q x → Q.length + p.flatten.length = n →
    x.writes E p = .err ∨ ∃ (x' : X) (A : List (List UInt8)), x.writes E p = .ok x' ∧ (∀ G ∈ A, Sync G) ∧ A.flatten = Q ++ p.flatten
  | [], Q, n, x, hp, hn => by
    right
    rw [List.flatten_nil, List.length_nil] at hn
    obtain ⟨hT, c, O, hc, ⟨p1, p2, p3, p4, p5, p6⟩ | ⟨q1, q2, q3, q4, q5, q6, q7⟩⟩ := hp
    · have : Q = [] := List.eq_nil_of_length_eq_zero (by omega)
      exact ⟨x, [], rfl, by simp, by simp [this]⟩
    · omega
  | d :: p, Q, n, x, hp, hn => by
    rw [List.flatten_cons, List.length_append] at hn
    rw [X.writes]
    rcases loop_any (d.length + 1) d Q n x (by omega) hp (by omega) with e0 | ⟨A, Q', n', x', e1, e2, e3, e4, e5⟩
    · left; rw [e0, Res.bind_err]
    · have hl := congrArg List.length e4
      rw [List.length_append, List.length_append] at hl
      rw [e1, Res.bind_ok]
      rcases writes_any p Q' n' x' e3 (by omega) with g0 | ⟨x2, A2, g1, g2, g3⟩
      · left; exact g0
      · right
        refine ⟨x2, A ++ A2, g1, ?_, ?_⟩
        · intro G hG
          rcases List.mem_append.1 hG with hG | hG
          · exact e2 G hG
          · exact g2 G hG
        · rw [List.flatten_append, g3, ← List.append_assoc, e4, List.flatten_cons, List.append_assoc]

/-- C132, any data: a frame that is not sync frames is refused. -/
theorem frame_any (E : Cipher) {iv : List UInt8} (hiv : iv.length = 16) (e : Evp) (parts : List (List UInt8)) :
    frame E iv e parts = .err ∨ ∃ o l, frame E iv e parts = .ok o ∧ l ≠ [] ∧ (∀ G ∈ l, Sync G) ∧ parts.flatten = l.flatten := by
  unfold frame start
  by_cases h7 : parts.flatten.length < 7
  · left; rw [if_pos h7, Res.bind_err]
  · rw [if_neg h7, Res.bind_ok]
    have h0 : Any E parts.flatten.length parts.flatten.length [] ⟨[], 7, parts.flatten.length, 0, FrameEnc.start iv e parts.flatten.length⟩ := by
      refine ⟨Nat.le_refl _, iv, [], hiv, Or.inl ⟨by simp, rfl, rfl, rfl, by omega, fun h32 => ?_⟩⟩
      unfold FrameEnc.start
      simp only []
      rw [if_pos (by omega)]
    rcases writes_any parts [] _ _ h0 (by simp) with g0 | ⟨x, A, g1, g2, g3⟩
    · left; rw [g0, Res.map_err]
    · right
      rw [List.nil_append] at g3
      refine ⟨_, A, by rw [g1, Res.map_ok], ?_, g2, g3.symm⟩
      rintro rfl
      rw [← g3] at h7
      simp at h7

end Verif.Eac3Enc
