import Verif.KmpRtmpConn

/-!
# KMP to RTMP: the messages follow the rules of chunk streams
-/

namespace Verif.KmpRtmp

open Verif.RtmpSpec
open Verif.RtmpSend (Sent)
open Verif.AmfSpec (Value Fields enc)
open Verif.KmpRtmpSpec (St Sp act acts command num amf configs videoFields audioFields ctl)

abbrev Prevs := Nat → Option Prev

def upd (prev : Prevs) (fmt field : Nat) (m : Mess) : Prevs := fun d => if d = m.csid then some ⟨m.ts, m.payload.length, m.type, m.msid, field, fmt == 0⟩ else prev d

def after (prev : Prevs) : List (Mess × Nat) → List Nat → Prevs
  | (m, field) :: ms, fmt :: fmts => after (upd prev fmt field m) ms fmts
  | _, _ => prev

def FitAll (T : Terms) (prev : Prevs) : List (Mess × Nat) → List Nat → Prop
  | (m, field) :: ms, fmt :: fmts => fmt ≤ 1 ∧ Fits T fmt field m (prev m.csid) ∧ FitAll T (upd prev fmt field m) ms fmts
  | _, _ => True

def Clean (S : Sender) (prev : Prevs) : Prop := ∀ d, S.lanes d = ⟨prev d, none⟩

/-- The numbers of a message are in their ranges. -/
structure Ranged (maxId : Nat) (x : Mess × Nat) : Prop where
  two : 2 ≤ x.1.csid
  one : x.1.csid ≤ 63
  max : x.1.csid < maxId
  ts : x.1.ts < 2 ^ 32
  type : x.1.type < 256
  ctl : x.1.type ≠ 1
  msid : x.1.msid < 2 ^ 32
  field : x.2 < 2 ^ 32

/-- The message is not too large for a server, and does not need what the sender may not use. -/
def Fine (T : Terms) (maxLen size : Nat) (x : Mess × Nat) : Prop :=
  x.1.payload.length < 2 ^ 24 ∧ x.1.payload.length ≤ maxLen ∧ Calm T size x.2 x.1.payload.length

theorem sendsAll_trans {F : List Mess → Option (List Nat)} {T : Terms} {maxId maxLen : Nat} {S S1 S2 : Sender} {a b : Bytes} (h1 : SendsAll F T maxId maxLen S a S1)
    (h2 : SendsAll F T maxId maxLen S1 b S2) : SendsAll F T maxId maxLen S (a ++ b) S2 := by
  induction h1 with
  | done => exact h2
  | more x _ ih =>
    rw [List.append_assoc]
    exact .more x (ih h2)

theorem ctl_other {l : List Mess} {m : Mess} (h : m.type ≠ 1) : ctl (l ++ [m]) = some [] := by
  simp [ctl, h]

/-- One message. -/
theorem one_sends {T : Terms} {maxId maxLen fmt field : Nat} {S : Sender} {prev : Prevs} {m : Mess} {bs : Bytes} {sizes : List Nat} (hcl : Clean S prev)
    (hcode : Coded S.size fmt field m bs) (hf : fmt ≤ 1) (hfit : Fits T fmt field m (prev m.csid)) (h2 : 2 ≤ m.csid) (h63 : m.csid ≤ 63) (hid : m.csid < maxId)
    (hts : m.ts < 2 ^ 32) (hty : m.type < 256) (hms : m.msid < 2 ^ 32) (hfl : field < 2 ^ 32) (hfine : Fine T maxLen S.size (m, field))
    (hctl : ctl (S.sent ++ [m]) = some sizes) (hs : ∀ n ∈ sizes, 1 ≤ n ∧ n ≤ 10485760) :
    ∃ S', SendsAll ctl T maxId maxLen S bs S' ∧ S'.sent = S.sent ++ [m] ∧ S'.size = sizes.getLast?.getD S.size ∧ Clean S' (upd prev fmt field m) := by
  obtain ⟨cs, hcut, rfl⟩ := hcode
  obtain ⟨S', k1, k2⟩ := mess_sends (F := ctl) (T := T) (maxId := maxId) (maxLen := maxLen) (S := S) (c := m.csid) (fmt := fmt) (field := field) (m := m) (cs := cs) rfl h2 h63 hid
    (by rw [hcl]) hts hty hms ⟨hfine.1, hfine.2.1⟩ hfl hf (by rw [hcl]; exact hfit) hfine.2.2 hcut hctl hs
  refine ⟨S', k1, k2.sent, k2.size, ?_⟩
  intro d
  unfold upd
  by_cases hd : d = m.csid
  · rw [if_pos hd, hd]
    exact k2.lane
  · rw [if_neg hd, ← hcl d]
    exact k2.other d hd

theorem batch_sends {T : Terms} {maxId maxLen size : Nat} {ms : List (Mess × Nat)} {fmts : List Nat} {bs : Bytes} (hc : CodedAll size ms fmts bs) :
    ∀ {S : Sender} {prev : Prevs}, Clean S prev → S.size = size → FitAll T prev ms fmts → (∀ x ∈ ms, Ranged maxId x) → (∀ x ∈ ms, Fine T maxLen size x) →
      ∃ S', SendsAll ctl T maxId maxLen S bs S' ∧ S'.sent = S.sent ++ ms.map (·.1) ∧ S'.size = size ∧ Clean S' (after prev ms fmts) := by
  induction hc with
  | nil =>
    intro S prev h1 h2 _ _ _
    exact ⟨S, .done S, by simp, h2, h1⟩
  | @cons m field fmt bs rest ms fmts a _ ih =>
    intro S prev h1 h2 h3 h4 h5
    subst h2
    obtain ⟨f1, f2, f3⟩ := h3
    have hr := h4 _ (List.mem_cons_self ..)
    obtain ⟨S1, k1, k2, k3, k4⟩ := one_sends h1 a f1 f2 hr.two hr.one hr.max hr.ts hr.type hr.msid hr.field (h5 _ (List.mem_cons_self ..)) (ctl_other hr.ctl) (by simp)
    obtain ⟨S2, j1, j2, j3, j4⟩ := ih k4 k3 f3 (fun x hx => h4 x (List.mem_cons_of_mem _ hx)) (fun x hx => h5 x (List.mem_cons_of_mem _ hx))
    exact ⟨S2, sendsAll_trans k1 j1, by rw [j2, k2]; simp, j3, j4⟩

theorem sum_eq (x : Int) (t : Nat) : (t + ((x - t) % 2 ^ 32).toNat) % 2 ^ 32 = (x % 2 ^ 32).toNat := by
  have h0 : 0 ≤ (x - t) % 2 ^ 32 := by omega
  obtain ⟨y, hy⟩ : ∃ y : Nat, (x - t) % 2 ^ 32 = y := ⟨_, (Int.toNat_of_nonneg h0).symm⟩
  rw [hy]
  have : x % 2 ^ 32 = ((t + y : Nat) : Int) % 2 ^ 32 := by omega
  rw [this]
  omega

/-- What the server remembers of the chunk streams. -/
structure Lanes (p : Sp) (prev : Prevs) : Prop where
  zero : ∃ q, prev 3 = some q ∧ q.msid = 0 ∧ q.ts = 0
  each : ∀ t ∈ p.sts, 1 ≤ t.id ∧ t.id ≤ p.count ∧ ∃ q, prev (t.id + 3) = some q ∧ q.msid = t.id ∧ (∀ x, t.time = some x → q.ts = x) ∧ (t.started = false → t.time = none)

theorem sp_find {p : Sp} {n : Nat} {t : St} (h : p.find n = some t) : t ∈ p.sts ∧ t.id = n := by
  unfold Sp.find at h
  exact ⟨List.mem_of_find?_eq_some h, by simpa using List.find?_some h⟩

/-- A command goes on chunk stream 3. -/
theorem lanes_command {p : Sp} {prev : Prevs} (h : Lanes p prev) (vs : List Value) : Lanes p (upd prev 1 0 (command vs)) := by
  refine ⟨⟨_, if_pos rfl, rfl, rfl⟩, fun t ht => ?_⟩
  obtain ⟨a, b, q, c, d⟩ := h.each t ht
  refine ⟨a, b, q, ?_, d⟩
  unfold upd
  rw [if_neg (by show t.id + 3 ≠ 3; omega)]
  exact c

theorem fits_command {T : Terms} {p : Sp} {prev : Prevs} (h : Lanes p prev) (vs : List Value) : Fits T 1 0 (command vs) (prev (command vs).csid) := by
  obtain ⟨q, h1, h2, h3⟩ := h.zero
  show Fits T 1 0 (command vs) (prev 3)
  rw [h1]
  exact .inr ⟨by omega, by omega, h2.symm, by rw [h3]; rfl, by omega, by omega⟩

theorem ranged_command {maxId : Nat} (hid : 4 ≤ maxId) (vs : List Value) : Ranged maxId (command vs, 0) :=
  ⟨by simp [command], by simp [command], show 3 < maxId by omega, by simp [command], by simp [command], by simp [command], by simp [command], by simp⟩

/-- The other messages go on the chunk stream of the stream. -/
theorem lanes_stream {p : Sp} {prev : Prevs} (h : Lanes p prev) {s : St} {m : Mess} {fmt field : Nat} (hs1 : 1 ≤ s.id) (hs2 : s.id ≤ p.count) (hc : m.csid = s.id + 3) (hm : m.msid = s.id)
    (ht : ∀ x, s.time = some x → m.ts = x)
    (hst : s.started = false → s.time = none) : Lanes (p.set s) (upd prev fmt field m) := by
  refine ⟨?_, ?_⟩
  · obtain ⟨q, h1, h2⟩ := h.zero
    refine ⟨q, ?_, h2⟩
    unfold upd
    rw [if_neg (by omega)]
    exact h1
  · intro t hmem
    obtain ⟨u, hu, rfl⟩ := List.mem_map.1 hmem
    show 1 ≤ St.id _ ∧ _
    by_cases he : u.id = s.id
    · rw [if_pos he]
      refine ⟨hs1, hs2, _, if_pos hc.symm, hm, ht, hst⟩
    · rw [if_neg he]
      obtain ⟨a, b, q, c, d⟩ := h.each u hu
      refine ⟨a, b, q, ?_, d⟩
      unfold upd
      rw [if_neg (by omega)]
      exact c

theorem lanes_same {p : Sp} {prev : Prevs} (h : Lanes p prev) {s t : St} (ht : t ∈ p.sts) (h1 : s.id = t.id) (h2 : s.time = t.time)
    (h3 : s.started = t.started) : Lanes (p.set s) prev := by
  refine ⟨h.zero, ?_⟩
  intro u hmem
  obtain ⟨w, hw, rfl⟩ := List.mem_map.1 hmem
  split
  · have := h.each t ht
    rw [← h1, ← h2, ← h3] at this
    exact this
  · exact h.each w hw

/-- Messages with full headers and no time. -/
theorem full_fits {T : Terms} {c n : Nat} : ∀ (ms : List (Mess × Nat)) (prev : Prevs), (∀ x ∈ ms, x.1.csid = c ∧ x.1.msid = n ∧ x.1.ts = 0 ∧ x.2 = 0) →
    FitAll T prev ms (List.replicate ms.length 0) ∧ (∀ d, d ≠ c → after prev ms (List.replicate ms.length 0) d = prev d) ∧
      (ms ≠ [] → ∃ q, after prev ms (List.replicate ms.length 0) c = some q ∧ q.msid = n) := by
  intro ms
  induction ms with
  | nil => intro prev _; exact ⟨trivial, fun _ _ => rfl, fun h => absurd rfl h⟩
  | cons x ms ih =>
    intro prev h
    obtain ⟨m, field⟩ := x
    obtain ⟨h1, h2, h3, h4⟩ := h _ (List.mem_cons_self ..)
    simp only at h1 h2 h3 h4
    obtain ⟨a, b, d⟩ := ih (upd prev 0 field m) (fun x hx => h x (List.mem_cons_of_mem _ hx))
    rw [List.length_cons, List.replicate_succ]
    refine ⟨⟨by omega, ?_, a⟩, ?_, fun _ => ?_⟩
    · cases prev m.csid with
      | none => exact ⟨rfl, by rw [h3, h4]⟩
      | some q => exact .inl ⟨rfl, by rw [h3, h4]⟩
    · intro k hk
      show after (upd prev 0 field m) ms _ k = _
      rw [b k hk, upd, if_neg (by omega)]
    · show ∃ q, after (upd prev 0 field m) ms _ c = some q ∧ _
      cases ms with
      | nil => exact ⟨_, if_pos h1.symm, h2⟩
      | cons y ys => exact d (by simp)

theorem configs_of {s : St} {m : Meta} {x : Mess} (hx : x ∈ configs s m) : x.csid = s.csid ∧ x.msid = s.id ∧ x.ts = 0 ∧ (x.type = 8 ∨ x.type = 9) := by
  unfold configs at hx
  rw [List.mem_append] at hx
  rcases hx with hx | hx <;> (repeat' split at hx) <;> simp at hx <;> subst hx <;> simp

/-- The headers of the messages that happen fit to what the server remembers. -/
theorem act_fits {e : Env} {T : Terms} {maxId : Nat} {p p' : Sp} {prev : Prevs} (h : Lanes p prev) {v : Ev} {ms : List (Mess × Nat)} (ha : act e p v = some (p', ms)) (hc : p'.count ≤ 60)
    (hid : p'.count + 3 < maxId) : FitAll T prev ms (fmtsOf p ms.length v) ∧ Lanes p' (after prev ms (fmtsOf p ms.length v)) ∧ (∀ x ∈ ms, Ranged maxId x) := by
  cases v with
  | publish name =>
    simp only [act, Option.some.injEq, Prod.mk.injEq] at ha
    obtain ⟨rfl, rfl⟩ := ha
    have hc : p.count + 1 ≤ 60 := hc
    have hid : p.count + 1 + 3 < maxId := hid
    have l1 := lanes_command h [.str (txt "releaseStream"), num e ((p.tx + 1) % 2 ^ 32), .null, .str name]
    have l2 := lanes_command l1 [.str (txt "FCPublish"), num e ((p.tx + 2) % 2 ^ 32), .null, .str name]
    have l3 := lanes_command l2 [.str (txt "createStream"), num e ((p.tx + 3) % 2 ^ 32), .null]
    refine ⟨⟨by omega, fits_command h _, by omega, fits_command l1 _, by omega, fits_command l2 _, by omega, ?_, trivial⟩, ?_, ?_⟩
    · generalize upd _ 1 0 _ = pr
      generalize amf _ = b
      show Fits T 0 0 ⟨p.count + 4, 0, 20, p.count + 1, b⟩ (pr (p.count + 4))
      cases pr (p.count + 4) with
      | none => exact ⟨rfl, rfl⟩
      | some q => exact .inl ⟨rfl, rfl⟩
    · refine ⟨?_, ?_⟩
      · obtain ⟨q, a, b⟩ := l3.zero
        refine ⟨q, ?_, b⟩
        simp only [after, fmtsOf]
        rw [upd, if_neg (by show 3 ≠ p.count + 4; omega)]
        exact a
      · intro t ht
        simp only [List.mem_append, List.mem_singleton] at ht
        simp only [after, fmtsOf]
        rcases ht with ht | rfl
        · obtain ⟨a, b, q, c, d⟩ := l3.each t ht
          refine ⟨a, by omega, q, ?_, d⟩
          rw [upd, if_neg (by show t.id + 3 ≠ p.count + 4; omega)]
          exact c
        · refine ⟨by simp, by simp, _, by rw [upd, if_pos rfl], rfl, by simp, by simp⟩
    · intro x hx
      simp only [List.mem_cons, List.not_mem_nil, or_false] at hx
      rcases hx with rfl | rfl | rfl | rfl
      · exact ranged_command (by omega) _
      · exact ranged_command (by omega) _
      · exact ranged_command (by omega) _
      · exact ⟨by show 2 ≤ p.count + 4; omega, by show p.count + 4 ≤ 63; omega, by show p.count + 4 < maxId; omega, by simp, by simp, by simp, by show p.count + 1 < 2 ^ 32; omega, by simp⟩
  | sound n codec rate bits channels =>
    simp only [act] at ha
    cases hf : p.find n with
    | none => rw [hf] at ha; simp at ha
    | some s =>
      rw [hf] at ha
      simp only [Option.some.injEq, Prod.mk.injEq] at ha
      obtain ⟨rfl, rfl⟩ := ha
      exact ⟨trivial, lanes_same h (sp_find hf).1 rfl rfl rfl, by simp⟩
  | start n m =>
    simp only [act] at ha
    cases hf : p.find n with
    | none => rw [hf] at ha; simp at ha
    | some s =>
      rw [hf] at ha
      simp only [] at ha
      by_cases hw : s.started = true
      · rw [if_pos hw] at ha; simp at ha
      · rw [if_neg hw] at ha
        simp only [Option.some.injEq, Prod.mk.injEq] at ha
        obtain ⟨rfl, rfl⟩ := ha
        obtain ⟨hmem, hn⟩ := sp_find hf
        obtain ⟨s1, s2, q, s3, s4, s5, s6⟩ := h.each s hmem
        have hc : p.count ≤ 60 := hc
        have hid : p.count + 3 < maxId := hid
        obtain ⟨ms, hms⟩ : ∃ ms : List (Mess × Nat), ms = (⟨s.csid, 0, 18, s.id, amf [.str (txt "@setDataFrame"), .str (txt "@onMetaData"),
            KmpRtmpSpec.arr (videoFields e m ++ audioFields e m)]⟩, 0) :: (configs s m).map (·, 0) := ⟨_, rfl⟩
        rw [← hms]
        have hall : ∀ x ∈ ms, (x.1.csid = s.id + 3 ∧ x.1.msid = s.id ∧ x.1.ts = 0 ∧ x.2 = 0) ∧ x.1.type < 256 ∧ x.1.type ≠ 1 := by
          intro x hx
          rw [hms, List.mem_cons] at hx
          rcases hx with rfl | hx
          · exact ⟨⟨rfl, rfl, rfl, rfl⟩, by simp, by simp⟩
          · obtain ⟨y, hy, rfl⟩ := List.mem_map.1 hx
            obtain ⟨y1, y2, y3, y4⟩ := configs_of hy
            exact ⟨⟨y1, y2, y3, rfl⟩, by show y.type < 256; omega, by show y.type ≠ 1; omega⟩
        obtain ⟨f1, f2, f3⟩ := full_fits (T := T) ms prev (fun x hx => (hall x hx).1)
        refine ⟨f1, ⟨?_, ?_⟩, ?_⟩
        · obtain ⟨q0, z1, z2⟩ := h.zero
          exact ⟨q0, by simp only [fmtsOf]; rw [f2 3 (by omega)]; exact z1, z2⟩
        · intro t ht
          obtain ⟨u, hu, rfl⟩ := List.mem_map.1 ht
          show 1 ≤ St.id _ ∧ _
          by_cases he : u.id = s.id
          · rw [if_pos he]
            obtain ⟨q', y1, y2⟩ := f3 (by rw [hms]; simp)
            refine ⟨s1, s2, q', y1, y2, ?_, by simp⟩
            intro x hx
            have := s6 (by simpa using hw)
            rw [this] at hx
            simp at hx
          · rw [if_neg he]
            obtain ⟨a, b, q', c, d⟩ := h.each u hu
            refine ⟨a, b, q', ?_, d⟩
            simp only [fmtsOf]
            rw [f2 _ (by omega)]
            exact c
        · intro x hx
          obtain ⟨⟨y1, y2, y3, y4⟩, y5, y6⟩ := hall x hx
          exact ⟨by omega, by omega, by omega, by omega, y5, y6, by omega, by omega⟩
  | frame n codec f =>
    simp only [act] at ha
    cases hf : p.find n with
    | none => rw [hf] at ha; simp at ha
    | some s =>
      rw [hf] at ha
      simp only [] at ha
      obtain ⟨hmem, hn⟩ := sp_find hf
      obtain ⟨s1, s2, q, s3, s4, s5, s6⟩ := h.each s hmem
      cases hg : KmpRtmpSpec.frameTag s.sound codec f with
      | none => rw [hg] at ha; simp at ha
      | some y =>
        obtain ⟨type, tag⟩ := y
        rw [hg] at ha
        simp only [] at ha
        have hty : type = 8 ∨ type = 9 := by
          unfold KmpRtmpSpec.frameTag at hg
          (repeat' split at hg) <;> simp at hg <;> omega
        by_cases hw : s.started = true
        · rw [if_pos hw] at ha
          obtain ⟨now, hnow⟩ : ∃ now, now = (f.dts % 2 ^ 32).toNat := ⟨_, rfl⟩
          have hnl : now < 2 ^ 32 := by rw [hnow]; omega
          rw [← hnow] at ha
          obtain ⟨field, hfield⟩ : ∃ field, field = s.field f.dts := ⟨_, rfl⟩
          rw [← hfield] at ha
          have hfl : field < 2 ^ 32 := by
            rw [hfield]
            unfold St.field
            split <;> omega
          have hfit : ∀ b, Fits T (if s.time.isSome then 1 else 0) field ⟨s.csid, now, type, s.id, b⟩ (prev s.csid) := by
            intro b
            show Fits _ _ _ _ (prev (s.id + 3))
            rw [s3]
            cases ht : s.time with
            | none => exact .inl ⟨rfl, by rw [hfield, hnow, St.field, ht]⟩
            | some t =>
              refine .inr ⟨by simp, by simp, s4.symm, ?_, by simp, by simp⟩
              rw [hfield, St.field, ht]
              simp only []
              rw [s5 t ht, hnow]
              exact (sum_eq f.dts t).symm
          have hany : (if (Option.any (·.time.isSome) (some s)) = true then 1 else 0) = (if s.time.isSome = true then 1 else 0) := rfl
          obtain ⟨told, htold⟩ : ∃ told : Prop, told = (p.period ≠ 0 ∧ (f.created < s.told ∨ s.told + p.period ≤ f.created)) := ⟨_, rfl⟩
          simp only [Option.some.injEq, Prod.mk.injEq] at ha
          obtain ⟨rfl, rfl⟩ := ha
          have hc : p.count ≤ 60 := hc
          have hid : p.count + 3 < maxId := hid
          by_cases hto : p.period ≠ 0 ∧ (f.created < s.told ∨ s.told + p.period ≤ f.created)
          · simp only [if_pos hto, fmtsOf, hf, hany]
            have l1 := lanes_stream (s := { s with time := some now, told := f.created }) h (m := ⟨s.csid, now, type, s.id, tag ++ f.data.flatten⟩)
              (fmt := if s.time.isSome = true then 1 else 0) (field := field) s1 s2 rfl rfl (by simp) (by simp [hw])
            refine ⟨⟨by split <;> omega, hfit _, by omega, ?_, trivial⟩, ?_, ?_⟩
            · have : upd prev (if s.time.isSome = true then 1 else 0) field ⟨s.csid, now, type, s.id, tag ++ f.data.flatten⟩ s.csid =
                  some ⟨now, (tag ++ f.data.flatten).length, type, s.id, field, (if s.time.isSome = true then 1 else 0) == 0⟩ := if_pos rfl
              show Fits _ _ _ _ (upd _ _ _ _ s.csid)
              rw [this]
              exact .inr ⟨by omega, by omega, rfl, (Nat.mod_eq_of_lt hnl).symm, by omega, by omega⟩
            · have l2 := lanes_stream (s := { s with time := some now, told := f.created }) l1 (m := ⟨s.csid, now, 18, s.id, amf [.str (txt "onFI"),
                KmpRtmpSpec.arr [(txt "sd", .str (e.clock f.created).1), (txt "st", .str (e.clock f.created).2)]]⟩) (fmt := 1) (field := 0) s1 s2 rfl rfl (by simp) (by simp [hw])
              have : ∀ u : St, (p.set u).set u = p.set u := by
                intro u
                unfold Sp.set
                simp only [List.map_map]
                congr 1
                refine List.map_congr_left fun w _ => ?_
                show (if (if w.id = u.id then u else w).id = u.id then u else (if w.id = u.id then u else w)) = _
                by_cases hwu : w.id = u.id <;> simp [hwu]
              rw [this] at l2
              exact l2
            · intro x hx
              simp only [List.mem_cons, List.not_mem_nil, or_false] at hx
              rcases hx with rfl | rfl
              · exact ⟨by show 2 ≤ s.id + 3; omega, by show s.id + 3 ≤ 63; omega, by show s.id + 3 < maxId; omega, hnl, by show type < 256; omega, by show type ≠ 1; omega,
                  by show s.id < _; omega, hfl⟩
              · exact ⟨by show 2 ≤ s.id + 3; omega, by show s.id + 3 ≤ 63; omega, by show s.id + 3 < maxId; omega, hnl, by simp, by simp, by show s.id < _; omega, by simp⟩
          · simp only [if_neg hto, fmtsOf, hf, hany]
            have l1 := lanes_stream (s := { s with time := some now }) h (m := ⟨s.csid, now, type, s.id, tag ++ f.data.flatten⟩)
              (fmt := if s.time.isSome = true then 1 else 0) (field := field) s1 s2 rfl rfl (by simp) (by simp [hw])
            refine ⟨⟨by split <;> omega, hfit _, trivial⟩, l1, ?_⟩
            intro x hx
            simp only [List.mem_cons, List.not_mem_nil, or_false] at hx
            obtain rfl := hx
            exact ⟨by show 2 ≤ s.id + 3; omega, by show s.id + 3 ≤ 63; omega, by show s.id + 3 < maxId; omega, hnl, by show type < 256; omega, by show type ≠ 1; omega,
              by show s.id < _; omega, hfl⟩
        · rw [if_neg hw] at ha; simp at ha
  | unpublish n =>
    simp only [act] at ha
    cases hf : p.find n with
    | none => rw [hf] at ha; simp at ha
    | some s =>
      rw [hf] at ha
      simp only [Option.some.injEq, Prod.mk.injEq] at ha
      obtain ⟨rfl, rfl⟩ := ha
      have hid : p.count + 3 < maxId := hid
      have l1 := lanes_command h [.str (txt "FCUnpublish"), num e ((p.tx + 1) % 2 ^ 32), .null, .str s.name]
      have l2 := lanes_command l1 [.str (txt "deleteStream"), num e ((p.tx + 2) % 2 ^ 32), .null, num e s.id]
      refine ⟨⟨by omega, fits_command h _, by omega, fits_command l1 _, trivial⟩, ⟨l2.zero, fun t ht => l2.each t (List.mem_filter.1 ht).1⟩, ?_⟩
      intro x hx
      simp only [List.mem_cons, List.not_mem_nil, or_false] at hx
      rcases hx with rfl | rfl
      · exact ranged_command (by omega) _
      · exact ranged_command (by omega) _

end Verif.KmpRtmp
