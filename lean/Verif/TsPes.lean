import Verif.TsFlat

/-!
# MPEG-TS: the PES packets of one stream
-/

namespace Verif.Ts

open TsSpec (Packet Pes)

/-! ## Reading a PES packet, or the first part of one -/

theorem be16_eq {n : Nat} (h : n < 65536) :
    ∃ a b, TsSpec.be16 n = [a, b] ∧ a.toNat * 256 + b.toNat = n := by
  refine ⟨_, _, rfl, ?_⟩
  rw [toNat_ofNat (by omega), toNat_ofNat (by omega)]
  omega

theorem parts_sum (x y z w t : Nat) (h5 : 32768 * z + w = t) (h6 : 32768 * x + y = z) : x * 1073741824 + y * 32768 + w = t := by
  omega

theorem time_parts {mark t : Nat} (ht : t < 2 ^ 33) :
    (mark * 16 + t / 2 ^ 30 * 2 + 1) / 2 % 8 * 2 ^ 30 + (t / 2 ^ 15 % 2 ^ 15 * 2 + 1) / 2 * 2 ^ 15 + (t % 2 ^ 15 * 2 + 1) / 2 = t := by
  rw [show (2 : Nat) ^ 30 = 1073741824 from by decide, show (2 : Nat) ^ 15 = 32768 from by decide]
  rw [show (2 : Nat) ^ 33 = 8589934592 from by decide] at ht
  have h1 : (mark * 16 + t / 1073741824 * 2 + 1) / 2 % 8 = t / 1073741824 := by omega
  have h2 : (t / 32768 % 32768 * 2 + 1) / 2 = t / 32768 % 32768 := by omega
  have h3 : (t % 32768 * 2 + 1) / 2 = t % 32768 := by omega
  have h4 : t / 1073741824 = t / 32768 / 32768 := by rw [Nat.div_div_eq_div_mul]
  rw [h1, h2, h3, h4]
  exact parts_sum _ _ _ _ _ (Nat.div_add_mod t 32768) (Nat.div_add_mod (t / 32768) 32768)

theorem rdTime_bytes {br : Br} {mark t : Nat} {rest : List UInt8} (hm : mark < 16) (ht : t < 2 ^ 33)
    (h : br.flatten = TsSpec.timeBytes mark t ++ rest) : ∃ r, rdTime br = some (t, r) ∧ r.flatten = rest := by
  obtain ⟨b1, b2, hb, hbn⟩ := be16_eq (n := t / 2 ^ 15 % 2 ^ 15 * 2 + 1) (by omega)
  obtain ⟨c1, c2, hc, hcn⟩ := be16_eq (n := t % 2 ^ 15 * 2 + 1) (by omega)
  rw [TsSpec.timeBytes, hb, hc] at h
  simp only [List.cons_append, List.nil_append] at h
  obtain ⟨r1, h1, f1⟩ := rd8_cons h
  obtain ⟨r2, h2, f2⟩ := rd16_cons f1
  obtain ⟨r3, h3, f3⟩ := rd16_cons f2
  refine ⟨r3, ?_, f3⟩
  rw [rdTime]
  simp only [h1, h2, h3]
  rw [hbn, hcn, toNat_ofNat (by omega)]
  rw [time_parts ht]

/-- The length that is written. -/
def plen (p : Pes) : Nat := if p.bounded then p.rest.length else 0

theorem pesStart_short {br : Br} (h : br.flatten.length < 6) : ∀ x, pesStart br ≠ .ok x := by
  intro x hx
  unfold pesStart at hx
  split at hx
  · cases hx
  rename_i p r1 h1
  split at hx
  · cases hx
  split at hx
  · cases hx
  rename_i s r2 h2
  split at hx
  · cases hx
  rename_i l r3 h3
  have g1 := rd_some h1
  obtain ⟨_, g2, _⟩ := rd8_some h2
  obtain ⟨_, _, g3, _⟩ := rd16_some h3
  rw [g3] at g2
  have := g1.2.2
  rw [g2] at this
  have := congrArg List.length this
  simp only [List.length_cons, List.length_drop] at this
  omega

theorem pesStart_bad {br : Br} {p : Pes} (h : br.flatten <+: p.bytes) : pesStart br ≠ .bad := by
  intro hx
  unfold pesStart at hx
  split at hx
  · cases hx
  rename_i pf r1 h1
  split at hx
  · rename_i hne
    obtain ⟨g1, g2, g3⟩ := rd_some h1
    obtain ⟨t, ht⟩ := h
    apply hne
    have h3 : (br.flatten ++ t).take 3 = [0, 0, 1] := by rw [ht]; rfl
    rw [List.take_append_of_le_length g1] at h3
    rw [g2, h3]
  · split at hx
    · cases hx
    · split at hx <;> cases hx

theorem pesStart_long {br : Br} {p : Pes} (hp : p.Ok) (h : br.flatten <+: p.bytes) (hl : 6 ≤ br.flatten.length) :
    ∃ r, pesStart br = .ok (p.sid, plen p, r) ∧ r.flatten <+: p.rest ∧ r.flatten.length + 6 = br.flatten.length := by
  obtain ⟨t, ht⟩ := h
  obtain ⟨b1, b2, hb, hbn⟩ := be16_eq (n := plen p) (by unfold plen; split; exact hp.len ‹_›; omega)
  have hbytes : p.bytes = [0, 0, 1, UInt8.ofNat p.sid, b1, b2] ++ p.rest := by
    rw [TsSpec.Pes.bytes]
    have : TsSpec.be16 (if p.bounded = true then p.rest.length else 0) = [b1, b2] := hb
    rw [this]
    rfl
  rw [hbytes] at ht
  have h6 : br.flatten.take 6 = [0, 0, 1, UInt8.ofNat p.sid, b1, b2] := by
    rw [← List.take_append_of_le_length (l₂ := t) hl, ht]
    rfl
  have hx : br.flatten = [0, 0, 1, UInt8.ofNat p.sid, b1, b2] ++ br.flatten.drop 6 := by
    rw [← h6, List.take_append_drop]
  have hpre : br.flatten.drop 6 <+: p.rest := by
    refine ⟨t, ?_⟩
    have := congrArg (List.drop 6) ht
    rw [List.drop_append_of_le_length hl] at this
    exact this
  obtain ⟨r1, h1, f1⟩ := rd_ok (br := br) (n := 3) (by omega)
  have e1 : br.flatten.take 3 = [0, 0, 1] := by rw [hx]; rfl
  have e2 : br.flatten.drop 3 = UInt8.ofNat p.sid :: b1 :: b2 :: br.flatten.drop 6 := by
    conv => lhs; rw [hx]
    rfl
  rw [e1] at h1
  rw [e2] at f1
  obtain ⟨r2, h2, f2⟩ := rd8_cons f1
  obtain ⟨r3, h3, f3⟩ := rd16_cons f2
  refine ⟨r3, ?_, by rw [f3]; exact hpre, by rw [f3, List.length_drop]; omega⟩
  unfold pesStart
  simp only [h1, h2, h3, ne_eq, not_true_eq_false, if_false]
  rw [hbn, toNat_ofNat hp.sid]

theorem plain_short {p : Pes} (h : p.sid ≠ 0xbe) : plain p.sid = p.short := by
  simp only [plain, TsSpec.Pes.short, TsSpec.padding, List.mem_cons, List.not_mem_nil, or_false, h, decide_false, Bool.or_false]
  rw [Bool.eq_iff_iff]
  simp only [decide_eq_true_eq, Bool.or_eq_true, or_assoc]
  omega

theorem pesBody_again {p : Pes} (hp : p.Ok) {br : Br} (h : br.flatten <+: p.rest) (hs : p.sid ≠ 0xbe) :
    (pesBody p.sid (plen p) br = .again ∧ br.flatten ≠ p.rest) ∨
    ∃ t r, pesBody p.sid (plen p) br = .ok (t, if p.bounded then p.payload.length else 0, r) ∧
      r.flatten <+: p.payload ∧ (br.flatten = p.rest → r.flatten = p.payload) ∧
      ∀ a b : Nat, ((match t with | none => a | some t => t.1), (match t with | none => b | some t => t.2)) = p.stamp (a, b) := by
  unfold pesBody
  rw [plain_short hs]
  by_cases hsh : p.short = true
  · right
    have hrest : p.rest = p.payload := by simp [TsSpec.Pes.rest, hsh]
    refine ⟨none, br, ?_, by rw [← hrest]; exact h, fun h => by rw [h, hrest], fun a b => by simp [TsSpec.Pes.stamp, hsh]⟩
    simp only [hsh, if_true, plen, hrest]
  · simp only [hsh, Bool.false_eq_true, if_false]
    obtain ⟨t, ht⟩ := h
    obtain ⟨hl, hhl⟩ : ∃ hl, hl = p.timeField.length + p.extra.length := ⟨_, rfl⟩
    have hrest : p.rest = [UInt8.ofNat p.flags.1, UInt8.ofNat (p.timeFlags * 64 + p.flags.2), UInt8.ofNat hl] ++
        (p.timeField ++ (p.extra ++ p.payload)) := by
      rw [hhl]
      simp [TsSpec.Pes.rest, hsh]
    have htf : p.timeFlags < 4 := by
      unfold TsSpec.Pes.timeFlags
      split <;> omega
    have hlen : p.rest.length = 3 + hl + p.payload.length := by
      rw [hrest]
      simp only [List.length_append, List.length_cons, List.length_nil]
      omega
    by_cases hk : br.flatten.length < 3
    · left
      refine ⟨?_, fun he => by rw [he] at hk; omega⟩
      split
      · rfl
      rename_i fl r1 h1
      obtain ⟨_, _, g1, _⟩ := rd16_some h1
      split
      · rfl
      rename_i hh r2 h2
      obtain ⟨_, g2, _⟩ := rd8_some h2
      rw [g1, g2] at hk
      simp at hk
      omega
    · have h3 : br.flatten = [UInt8.ofNat p.flags.1, UInt8.ofNat (p.timeFlags * 64 + p.flags.2), UInt8.ofNat hl] ++ br.flatten.drop 3 := by
        have : br.flatten.take 3 = [UInt8.ofNat p.flags.1, UInt8.ofNat (p.timeFlags * 64 + p.flags.2), UInt8.ofNat hl] := by
          rw [← List.take_append_of_le_length (l₂ := t) (by omega), ht, hrest]
          rfl
        rw [← this, List.take_append_drop]
      have hd3 : br.flatten.drop 3 ++ t = p.timeField ++ (p.extra ++ p.payload) := by
        have := congrArg (List.drop 3) ht
        rw [List.drop_append_of_le_length (by omega), hrest] at this
        exact this
      generalize br.flatten.drop 3 = d at *
      obtain ⟨r1, e1, f1⟩ := rd16_cons h3
      obtain ⟨r2, e2, f2⟩ := rd8_cons f1
      simp only [e1, e2]
      have hhd := hp.head
      rw [toNat_ofNat (n := hl) (by omega), toNat_ofNat hp.flags.1, toNat_ofNat (n := p.timeFlags * 64 + p.flags.2) (by have := hp.flags.2; omega)]
      have hff : (p.flags.1 * 256 + (p.timeFlags * 64 + p.flags.2)) / 64 % 4 = p.timeFlags := by
        have := hp.flags.2
        omega
      rw [if_neg (by unfold plen; split <;> omega)]
      by_cases hd : d.length < hl
      · left
        rw [(rd_spec r2 hl).2 (by rw [f2]; exact hd)]
        refine ⟨rfl, fun he => ?_⟩
        have := congrArg List.length he
        rw [h3, hlen] at this
        simp at this
        omega
      · right
        obtain ⟨r3, e3, f3⟩ := rd_ok (br := r2) (n := hl) (by rw [f2]; simp; omega)
        simp only [e3]
        rw [f2] at f3
        simp only [List.append_eq, List.nil_append] at f2 f3
        -- the time stamps
        have hdt : d = p.timeField ++ d.drop p.timeField.length := by
          have : d.take p.timeField.length = p.timeField := by
            rw [← List.take_append_of_le_length (l₂ := t) (by omega), hd3]
            simp
          conv => lhs; rw [← List.take_append_drop p.timeField.length d, this]
        have hpay : d.drop hl ++ t = p.payload := by
          have := congrArg (List.drop hl) hd3
          rw [List.drop_append_of_le_length (by omega), ← List.append_assoc] at this
          rw [this, hhl]
          have : p.timeField.length + p.extra.length = (p.timeField ++ p.extra).length := by simp
          rw [this, List.drop_left]
        have htimes : ∃ tt, pesTimes (p.flags.1 * 256 + (p.timeFlags * 64 + p.flags.2)) r2 = some tt ∧
            ∀ a b : Nat, ((match tt with | none => a | some t => t.1), (match tt with | none => b | some t => t.2)) = p.stamp (a, b) := by
          unfold pesTimes
          rw [hff]
          match ht : p.times with
          | none =>
            have h0 : p.timeFlags = 0 := by simp [TsSpec.Pes.timeFlags, ht]
            rw [h0]
            exact ⟨none, rfl, fun a b => by simp [TsSpec.Pes.stamp, hsh, ht]⟩
          | some (pts, none) =>
            have h0 : p.timeFlags = 2 := by simp [TsSpec.Pes.timeFlags, ht]
            have h1 : p.timeField = TsSpec.timeBytes 2 pts := by simp [TsSpec.Pes.timeField, ht]
            rw [h1] at hdt
            obtain ⟨r, hr, _⟩ := rdTime_bytes (br := r2) (by omega) (hp.pts _ _ ht) (f2.trans hdt)
            rw [h0, hr]
            exact ⟨_, rfl, fun a b => by simp [TsSpec.Pes.stamp, hsh, ht]⟩
          | some (pts, some dts) =>
            have h0 : p.timeFlags = 3 := by simp [TsSpec.Pes.timeFlags, ht]
            have h1 : p.timeField = TsSpec.timeBytes 3 pts ++ TsSpec.timeBytes 1 dts := by simp [TsSpec.Pes.timeField, ht]
            rw [h1, List.append_assoc] at hdt
            obtain ⟨r, hr, fr⟩ := rdTime_bytes (br := r2) (by omega) (hp.pts _ _ ht) (f2.trans hdt)
            obtain ⟨r', hr', _⟩ := rdTime_bytes (br := r) (by omega) (hp.dts _ _ ht) fr
            rw [h0, hr]
            simp only [hr']
            exact ⟨_, rfl, fun a b => by simp [TsSpec.Pes.stamp, hsh, ht]⟩
        obtain ⟨tt, htt, hst⟩ := htimes
        simp only [htt]
        refine ⟨tt, r3, ?_, by rw [f3]; exact ⟨t, hpay⟩, fun he => ?_, hst⟩
        · congr 3
          unfold plen
          cases hb : p.bounded with
          | false => simp
          | true =>
            simp only [if_true]
            rw [if_neg (by omega)]
            omega
        · rw [f3, ← hpay]
          have : t = [] := by
            rw [he] at ht
            simpa using ht
          rw [this, List.append_nil]

/-! ## The end of a PES packet -/

theorem flushA_bad {a : A} {p : Pes} (hp : p.Ok) (h : a.chain.flatten <+: p.bytes) : flushA a ≠ .bad := by
  intro hx
  unfold flushA at hx
  by_cases hl : 6 ≤ a.chain.flatten.length
  · obtain ⟨r, h1, h2, _⟩ := pesStart_long hp h hl
    rw [h1] at hx
    simp only at hx
    split at hx
    · cases hx
    · rename_i hs
      rcases pesBody_again hp h2 hs with ⟨h3, _⟩ | ⟨t, r', h3, _⟩
      · rw [h3] at hx
        cases hx
      · rw [h3] at hx
        generalize (if p.bounded = true then p.payload.length else 0) = L at hx
        simp only at hx
        split at hx <;> cases hx
  · cases hp : pesStart a.chain with
    | again => rw [hp] at hx; cases hx
    | bad => exact pesStart_bad h hp
    | ok x => exact pesStart_short (by omega) x hp

/-- What is delivered of a part of a PES packet. -/
theorem flushA_part {a : A} {p : Pes} (hp : p.Ok) (h : a.chain.flatten <+: p.bytes) {pts dts : Nat} {c : Bool} {ev : Event}
    (hx : flushA a = .done pts dts c (some ev)) : a.corrupt = false ∧ ∃ br, ev = .pes a.pid p.sid pts dts a.rand br ∧
      br.flatten <+: p.payload ∧ (p.bounded = true → br.flatten = p.payload) ∧ (pts, dts) = p.stamp (a.pts, a.dts) ∧
      p.sid ≠ TsSpec.padding := by
  unfold flushA at hx
  by_cases hl : 6 ≤ a.chain.flatten.length
  · obtain ⟨r, h1, h2, _⟩ := pesStart_long hp h hl
    rw [h1] at hx
    simp only at hx
    split at hx
    · cases hx
    · rename_i hs
      rcases pesBody_again hp h2 hs with ⟨h3, _⟩ | ⟨t, r', h3, h4, h5, h6⟩
      · rw [h3] at hx
        cases hx
      · rw [h3] at hx
        generalize hL : (if p.bounded = true then p.payload.length else 0) = L at hx
        simp only at hx
        split at hx
        · cases hx
        · rename_i hc
          rw [← hL] at hc
          simp only [Flush.done.injEq, Option.some.injEq] at hx
          obtain ⟨rfl, rfl, _, rfl⟩ := hx
          refine ⟨by simpa using fun h => hc (.inl h), r', rfl, h4, fun hb => ?_, h6 _ _, hs⟩
          simp only [hb, if_true, left_eq] at hc
          by_cases h0 : p.payload.length = 0
          · have : p.payload = [] := List.eq_nil_of_length_eq_zero h0
            rw [this] at h4 ⊢
            exact List.prefix_nil.mp h4
          · exact h4.eq_of_length (by omega)
  · cases hp : pesStart a.chain with
    | again => rw [hp] at hx; cases hx
    | bad => exact absurd hp (pesStart_bad h)
    | ok x => exact absurd hp (pesStart_short (by omega) x)

/-- A whole PES packet is delivered. -/
theorem flushA_whole {a : A} {p : Pes} (hp : p.Ok) (h : a.chain.flatten = p.bytes) (hc : a.corrupt = false) :
    ∃ br, br.flatten = p.payload ∧ flushA a = .done (p.stamp (a.pts, a.dts)).1 (p.stamp (a.pts, a.dts)).2 false
      (if p.sid = TsSpec.padding then none
        else some (.pes a.pid p.sid (p.stamp (a.pts, a.dts)).1 (p.stamp (a.pts, a.dts)).2 a.rand br)) := by
  have hpre : a.chain.flatten <+: p.bytes := by rw [h]; exact List.prefix_refl _
  have h6 : 6 + p.rest.length = p.bytes.length := by
    simp [TsSpec.Pes.bytes, TsSpec.be16]
    omega
  obtain ⟨r, h1, h2, h2'⟩ := pesStart_long hp hpre (by rw [h]; omega)
  have hr : r.flatten = p.rest := h2.eq_of_length (by rw [h] at h2'; omega)
  unfold flushA
  rw [h1]
  simp only
  split
  · rename_i hs
    refine ⟨[p.payload], by simp, ?_⟩
    have hs' : p.sid = TsSpec.padding := hs
    rw [if_pos hs', hc]
    have : p.stamp (a.pts, a.dts) = (a.pts, a.dts) := by simp [TsSpec.Pes.stamp, TsSpec.Pes.short, hs, TsSpec.padding]
    rw [this]
  · rename_i hs
    rcases pesBody_again hp h2 hs with ⟨_, h3⟩ | ⟨t, r', h3, h4, h5, h6⟩
    · exact absurd hr h3
    · refine ⟨r', h5 hr, ?_⟩
      rw [h3]
      simp only
      rw [hc, left_eq, h5 hr, if_neg (by split <;> simp), ← h6]
      have hs' : ¬ p.sid = TsSpec.padding := hs
      rw [if_neg hs']
      rfl

/-! ## Packets of a stream -/

theorem stepA_more {a : A} {q : Packet} (hs : q.start = false) (hc : a.chain ≠ []) :
    stepA a q = ({ a with corrupt := a.corrupt || skipped a.cont q.cont, cont := some q.cont, chain := a.chain ++ [q.payload] }, none,
      match pesStart (a.chain ++ [q.payload]) with
      | .bad => true
      | _ => false) := by
  have hn : nextA a q.start = (a, none, false) := by simp [nextA, hs]
  unfold stepA
  simp only [hn, Bool.false_eq_true, if_false]
  have ha : appendA q.start a.chain q.payload = a.chain ++ [q.payload] := by simp [appendA, hs, hc]
  unfold addA
  simp only [if_neg hc, ha]
  rfl

theorem stepA_idle {a : A} {q : Packet} (hs : q.start = false) (hc : a.chain = []) :
    stepA a q = ({ a with rand := q.random, corrupt := a.corrupt || skipped a.cont q.cont, cont := some q.cont, chain := [] }, none, false) := by
  have hn : nextA a q.start = (a, none, false) := by simp [nextA, hs]
  unfold stepA
  simp only [hn, Bool.false_eq_true, if_false]
  unfold addA
  simp only [hc, if_true, appendA, hs, Bool.false_eq_true, not_false_eq_true, and_self]
  rfl

theorem stepA_first {a : A} {q : Packet} (hs : q.start = true) (hc : a.chain = []) :
    stepA a q = ({ a with rand := q.random, corrupt := a.corrupt || skipped a.cont q.cont, cont := some q.cont, chain := [q.payload] }, none,
      match pesStart [q.payload] with
      | .bad => true
      | _ => false) := by
  have hn : nextA a q.start = (a, none, false) := by simp [nextA, hc]
  unfold stepA
  simp only [hn, Bool.false_eq_true, if_false]
  unfold addA
  simp only [hc, appendA, hs, if_true, not_true_eq_false, false_and, if_false, ne_eq, and_false, List.nil_append]
  rfl

theorem stepA_flush {a : A} {q : Packet} (hs : q.start = true) (hc : a.chain ≠ []) {pts dts : Nat} {c : Bool} {ev : Option Event}
    (hf : flushA a = .done pts dts c ev) :
    stepA a q = ((stepA { a with pts := pts, dts := dts, corrupt := c, chain := [] } q).1, ev,
      (stepA { a with pts := pts, dts := dts, corrupt := c, chain := [] } q).2.2) := by
  have hn : nextA a q.start = ({ a with pts := pts, dts := dts, corrupt := c, chain := [] }, ev, false) := by
    simp only [nextA]
    rw [if_pos ⟨hs, hc⟩, hf]
  have hn' : nextA { a with pts := pts, dts := dts, corrupt := c, chain := [] } q.start =
    ({ a with pts := pts, dts := dts, corrupt := c, chain := [] }, none, false) := by simp [nextA]
  unfold stepA
  simp only [hn, hn', Bool.false_eq_true, if_false]

/-- The next counter is `c`. -/
def Next (cont : Option Nat) (c : Nat) : Prop := cont = none ∨ ∃ l, cont = some l ∧ (l + 1) % 16 = c

theorem next_skipped {cont : Option Nat} {c : Nat} (h : Next cont c) : skipped cont c = false := by
  rcases h with h | ⟨l, h, h2⟩ <;> simp [skipped, h]
  omega

theorem notbad {ch : Br} {p : Pes} (h : ch.flatten <+: p.bytes) : (match pesStart ch with | .bad => true | _ => false) = false := by
  split
  · rename_i hb
    exact absurd hb (pesStart_bad h)
  · rfl

theorem run_more {p : Pes} (t : List Packet) {a : A} {c : Nat} (ht : ∀ x ∈ t, x.start = false) (hc : a.chain ≠ []) (hk : a.corrupt = false)
    (hn : Next a.cont c) (hcount : TsSpec.Counted c t) (hpre : (a.chain ++ t.map Packet.payload).flatten <+: p.bytes) :
    ∃ a', runA a t = (a', [], false) ∧ a'.chain = a.chain ++ t.map Packet.payload ∧ a'.corrupt = false ∧ a'.rand = a.rand ∧
      a'.pts = a.pts ∧ a'.dts = a.dts ∧ a'.pid = a.pid ∧ Next a'.cont ((c + t.length) % 16) := by
  induction t generalizing a c with
  | nil =>
    refine ⟨a, rfl, by simp, hk, rfl, rfl, rfl, rfl, ?_⟩
    rcases hn with h | ⟨l, h, h2⟩
    · exact .inl h
    · exact .inr ⟨l, h, by simp only [List.length_nil]; omega⟩
  | cons q t ih =>
    obtain ⟨c1, c2⟩ := hcount
    have hp1 : (a.chain ++ [q.payload]).flatten <+: p.bytes := by
      refine List.IsPrefix.trans ?_ hpre
      simp only [List.map_cons, List.flatten_append, List.flatten_cons, List.flatten_nil, List.append_nil]
      rw [← List.append_assoc]
      exact List.prefix_append _ _
    have hst := stepA_more (ht q (by simp)) hc
    rw [notbad hp1, hk, c1, next_skipped hn] at hst
    obtain ⟨a', h1, h2, h3, h4, h5, h6, h7, h8⟩ := ih (a := (stepA a q).1) (c := (c + 1) % 16) (fun x hx => ht x (by simp [hx]))
      (by rw [hst]; simp) (by rw [hst]; simp) (by rw [hst]; exact .inr ⟨c, rfl, rfl⟩) c2
      (by rw [hst]; simpa using hpre)
    rw [hst] at h1 h2 h4 h5 h6 h7
    refine ⟨a', ?_, by rw [h2]; simp, h3, h4, h5, h6, h7, ?_⟩
    · rw [runA_cons _ (by rw [hst]), hst, h1]
      rfl
    · simp only [List.length_cons]
      have : ((c + 1) % 16 + t.length) % 16 = (c + (t.length + 1)) % 16 := by omega
      rw [← this]
      exact h8

/-- A stream that waits for a PES packet, from which the first counter is `c`. -/
structure Idle (a : A) (c : Nat) : Prop where
  chain : a.chain = []
  corrupt : a.corrupt = false
  next : Next a.cont c

/-- A stream that has a PES packet, of which `random` is said. -/
structure Holds (a : A) (p : Pes) (random : Bool) (c : Nat) : Prop where
  ne : a.chain ≠ []
  chain : a.chain.flatten = p.bytes
  corrupt : a.corrupt = false
  rand : a.rand = random
  next : Next a.cont c

/-- Whether random access is possible at the start. -/
def firstRandom (qs : List Packet) : Bool := (qs.head?.map Packet.random).getD false

theorem run_unit {p : Pes} {qs : List Packet} {a : A} {c : Nat} (ha : Idle a c) (hq : TsSpec.Carries p qs)
    (hcount : TsSpec.Counted c qs) : ∃ a', runA a qs = (a', [], false) ∧ Holds a' p (firstRandom qs) ((c + qs.length) % 16) ∧
      a'.pid = a.pid ∧ a'.pts = a.pts ∧ a'.dts = a.dts := by
  obtain ⟨⟨q, t, rfl, hs, ht⟩, _, hb⟩ := hq
  obtain ⟨c1, c2⟩ := hcount
  have hp0 : ([q.payload] : Br).flatten <+: p.bytes := by
    rw [← hb]
    simp
  have hst := stepA_first hs ha.chain
  rw [notbad hp0, ha.corrupt, c1, next_skipped ha.next] at hst
  obtain ⟨a', h1, h2, h3, h4, h5, h6, h7, h8⟩ := run_more (p := p) t (a := (stepA a q).1) (c := (c + 1) % 16) ht
    (by rw [hst]; simp) (by rw [hst]; simp) (by rw [hst]; exact .inr ⟨c, rfl, rfl⟩) c2
    (by rw [hst, ← hb]; simp)
  rw [hst] at h1 h2 h4 h5 h6 h7
  refine ⟨a', ?_, ⟨by rw [h2]; simp, by rw [h2, ← hb]; simp, h3, by rw [h4]; rfl, ?_⟩, h7, h5, h6⟩
  · rw [runA_cons _ (by rw [hst]), hst, h1]
    rfl
  · simp only [List.length_cons]
    have : ((c + 1) % 16 + t.length) % 16 = (c + (t.length + 1)) % 16 := by omega
    rw [← this]
    exact h8

/-- What an event says of a stream. -/
def Event.received (pid : Nat) : Event → Option TsSpec.Received
  | .pes p sid pts dts r br => if p = pid then some { sid := sid, pts := pts, dts := dts, random := r, data := br.flatten } else none
  | _ => none

/-- What should be received for a PES packet. -/
def expect1 (prev : Nat × Nat) (p : Pes) (r : Bool) : List TsSpec.Received :=
  if p.sid = TsSpec.padding then []
  else [{ sid := p.sid, pts := (p.stamp prev).1, dts := (p.stamp prev).2, random := r, data := p.payload }]

theorem expected_cons (prev : Nat × Nat) (p : Pes) (qs : List Packet) (us : List (Pes × List Packet)) :
    TsSpec.expected prev ((p, qs) :: us) = expect1 prev p (firstRandom qs) ++ TsSpec.expected (p.stamp prev) us := rfl

/-- The next PES packet. -/
theorem run_next {p p2 : Pes} {qs : List Packet} {a : A} {r : Bool} {c : Nat} (hp : p.Ok) (ha : Holds a p r c)
    (hq : TsSpec.Carries p2 qs) (hcount : TsSpec.Counted c qs) :
    ∃ a' evs, runA a qs = (a', evs, false) ∧ Holds a' p2 (firstRandom qs) ((c + qs.length) % 16) ∧ a'.pid = a.pid ∧
      (a'.pts, a'.dts) = p.stamp (a.pts, a.dts) ∧ evs.filterMap (Event.received a.pid) = expect1 (a.pts, a.dts) p r := by
  obtain ⟨br, hbr, hfl⟩ := flushA_whole hp ha.chain ha.corrupt
  generalize hev : (if p.sid = TsSpec.padding then none
        else some (Event.pes a.pid p.sid (p.stamp (a.pts, a.dts)).1 (p.stamp (a.pts, a.dts)).2 a.rand br)) = ev at hfl
  obtain ⟨q, t, hqs, hs, ht⟩ := hq.start
  have hst := stepA_flush hs ha.ne hfl
  obtain ⟨a', h1, h2, h3, h4, h5⟩ := run_unit (a := { a with pts := (p.stamp (a.pts, a.dts)).1, dts := (p.stamp (a.pts, a.dts)).2, corrupt := false, chain := [] })
    ⟨rfl, rfl, ha.next⟩ hq hcount
  refine ⟨a', ev.toList, ?_, h2, h3, by rw [h4, h5], ?_⟩
  · subst hqs
    have hg : (stepA { a with pts := (p.stamp (a.pts, a.dts)).1, dts := (p.stamp (a.pts, a.dts)).2, corrupt := false, chain := [] } q).2.2 = false := by
      cases hb : (stepA { a with pts := (p.stamp (a.pts, a.dts)).1, dts := (p.stamp (a.pts, a.dts)).2, corrupt := false, chain := [] } q).2.2 with
      | false => rfl
      | true =>
        have := runA_bad t hb
        rw [h1] at this
        cases this
    rw [runA_cons _ hg] at h1
    rw [runA_cons _ (by rw [hst]; exact hg), hst]
    simp only [Prod.mk.injEq, List.append_eq_nil_iff] at h1
    obtain ⟨g1, ⟨_, g2⟩, g3⟩ := h1
    simp only [g1, g2, g3, List.append_nil]
  · subst hev
    unfold expect1
    split
    · rfl
    · simp [Event.received, hbr, ha.rand]

theorem runA_append {a : A} (qs rs : List Packet) (h : (runA a qs).2.2 = false) :
    runA a (qs ++ rs) = ((runA (runA a qs).1 rs).1, (runA a qs).2.1 ++ (runA (runA a qs).1 rs).2.1, (runA (runA a qs).1 rs).2.2) := by
  induction qs generalizing a with
  | nil => simp [runA]
  | cons q qs ih =>
    cases hs : (stepA a q).2.2 with
    | true => rw [runA_bad qs hs] at h; cases h
    | false =>
      rw [List.cons_append, runA_cons _ hs, runA_cons _ hs]
      rw [runA_cons _ hs] at h
      rw [ih h]
      simp

theorem counted_append {c : Nat} {qs rs : List Packet} (hne : qs ≠ []) (h : TsSpec.Counted c (qs ++ rs)) :
    TsSpec.Counted c qs ∧ TsSpec.Counted ((c + qs.length) % 16) rs := by
  induction qs generalizing c with
  | nil => exact absurd rfl hne
  | cons q qs ih =>
    obtain ⟨h1, h2⟩ := h
    cases qs with
    | nil => exact ⟨⟨h1, trivial⟩, h2⟩
    | cons q2 qs =>
      obtain ⟨k1, k2⟩ := ih (by simp) h2
      refine ⟨⟨h1, k1⟩, ?_⟩
      have : ((c + 1) % 16 + (q2 :: qs).length) % 16 = (c + (q :: q2 :: qs).length) % 16 := by
        simp only [List.length_cons]
        omega
      rw [← this]
      exact k2

theorem carries_ne {p : Pes} {qs : List Packet} (h : TsSpec.Carries p qs) : qs ≠ [] := by
  obtain ⟨q, t, rfl, _⟩ := h.start
  simp

theorem run_units {p : Pes} (us : List (Pes × List Packet)) {a : A} {r : Bool} {c : Nat} (hp : p.Ok) (ha : Holds a p r c)
    (hu : ∀ u ∈ us, u.1.Ok ∧ TsSpec.Carries u.1 u.2) (hcount : TsSpec.Counted c (us.map Prod.snd).flatten) (qs : List Packet)
    (hr : r = firstRandom qs) :
    ∃ a' evs, runA a (us.map Prod.snd).flatten = (a', evs, false) ∧
      evs.filterMap (Event.received a.pid) = TsSpec.expected (a.pts, a.dts) ((p, qs) :: us).dropLast := by
  induction us generalizing a p r c qs with
  | nil => exact ⟨a, [], rfl, rfl⟩
  | cons u us ih =>
    obtain ⟨p2, qs2⟩ := u
    simp only [List.map_cons, List.flatten_cons] at hcount ⊢
    obtain ⟨c1, c2⟩ := counted_append (carries_ne (hu (p2, qs2) (by simp)).2) hcount
    obtain ⟨a1, evs, h1, h2, h3, h4, h5⟩ := run_next hp ha (hu (p2, qs2) (by simp)).2 c1
    obtain ⟨a2, evs2, k1, k2⟩ := ih (hu (p2, qs2) (by simp)).1 h2 (fun u h => hu u (by simp [h])) c2 qs2 rfl
    refine ⟨a2, evs ++ evs2, ?_, ?_⟩
    · rw [runA_append _ _ (by rw [h1]), h1]
      simp only [k1]
    · rw [List.filterMap_append, h5, ← h3, k2, List.dropLast_cons_cons, expected_cons, h4, hr]

/-- The PES packets of a stream from its start. -/
theorem run_all (us : List (Pes × List Packet)) {a : A} {c : Nat} (ha : Idle a c)
    (hu : ∀ u ∈ us, u.1.Ok ∧ TsSpec.Carries u.1 u.2) (hcount : TsSpec.Counted c (us.map Prod.snd).flatten) :
    ∃ a' evs, runA a (us.map Prod.snd).flatten = (a', evs, false) ∧
      evs.filterMap (Event.received a.pid) = TsSpec.expected (a.pts, a.dts) us.dropLast := by
  cases us with
  | nil => exact ⟨a, [], rfl, rfl⟩
  | cons u us =>
    obtain ⟨p, qs⟩ := u
    simp only [List.map_cons, List.flatten_cons] at hcount ⊢
    obtain ⟨c1, c2⟩ := counted_append (carries_ne (hu (p, qs) (by simp)).2) hcount
    obtain ⟨a1, h1, h2, h3, h4, h5⟩ := run_unit ha (hu (p, qs) (by simp)).2 c1
    obtain ⟨a2, evs2, k1, k2⟩ := run_units us (hu (p, qs) (by simp)).1 h2 (fun u h => hu u (by simp [h])) c2 qs rfl
    refine ⟨a2, evs2, ?_, ?_⟩
    · rw [runA_append _ _ (by rw [h1]), h1]
      simp only [k1, List.nil_append]
    · rw [h3, h4, h5] at k2
      exact k2

theorem runA_take {a : A} {qs : List Packet} (h : (runA a qs).2.2 = false) {rs ts : List Packet} (he : qs = rs ++ ts) :
    (runA a rs).2.2 = false := by
  subst he
  induction rs generalizing a with
  | nil => rfl
  | cons q rs ih =>
    cases hs : (stepA a q).2.2 with
    | true =>
      rw [List.cons_append, runA_bad _ hs] at h
      cases h
    | false =>
      rw [List.cons_append, runA_cons _ hs] at h
      rw [runA_cons _ hs]
      exact ih h

/-! ## C75 -/

/-- Whether a pid is that of a stream that was announced. -/
def St.Streams (s : St) (pid : Nat) : Prop := (viewOf pid s.progs).isSome = true

/-- A stream of which no packet was received. -/
def A.new (pid : Nat) : A := { pid := pid, cont := none, pts := 0, dts := 0, rand := false, corrupt := false, chain := [] }

/-- What was received of a stream. -/
def St.received (s : St) (pid : Nat) : List TsSpec.Received := s.log.filterMap (Event.received pid)

theorem filterMap_ofPid (pid : Nat) (l : List Event) :
    l.filterMap (Event.received pid) = (l.filter (Event.ofPid pid)).filterMap (Event.received pid) := by
  induction l with
  | nil => rfl
  | cons e l ih =>
    rw [List.filterMap_cons, List.filter_cons]
    cases e with
    | pes p sid pts dts r br =>
      by_cases h : p = pid
      · simp only [Event.received, Event.ofPid, h, decide_true, if_true, List.filterMap_cons]
        rw [ih]
      · simp only [Event.received, Event.ofPid, h, decide_false, Bool.false_eq_true, if_false]
        exact ih
    | _ =>
      simp only [Event.received, Event.ofPid, Bool.false_eq_true, if_false]
      exact ih

/-- A state that was reached by reading whole packets. -/
theorem reached_ready (H : Handler) {memLimit : Nat} {calls : List (List (List UInt8))} {s : St}
    (h : (St.init memLimit).session H calls = .ok s) (hf : s.fail = none) (hb : s.buf = none) (hk : s.Known) : s.Ready memLimit := by
  rw [session_push H calls (fun _ => init_inv memLimit)] at h
  obtain ⟨s', h1, h2⟩ := pushAll_inv H (fun _ => init_inv memLimit) calls.flatten.flatten
  rw [h1] at h
  cases h
  exact ⟨h2 hf, hb, hf, hk⟩

/-- C75, in part: when the tables are known, and the packets of every stream carry PES packets with consecutive counters, then no error
is found in the stream, and what is received of every stream, in whatever pieces and however the streams are interleaved, is what was
sent: stream ids, times, data, in the order in which they were sent, except the last PES packet of each stream.

Missing: the last PES packet, and packets that have no payload (see `the_last_is_not_received` and `packets_without_payload_lose_data` in TsCases). -/
theorem pes_packets_are_received_partial (H : Handler) (memLimit : Nat) (calls more : List (List (List UInt8))) (s : St)
    (h : (St.init memLimit).session H calls = .ok s) (hf : s.fail = none) (hb : s.buf = none) (hk : s.Known)
    (qs : List Packet) (hmore : more.flatten.flatten = bytesOf qs) (hq : ∀ q ∈ qs, q.Ok)
    (units : Nat → List (Pes × List Packet)) (c : Nat → Nat)
    (hu : ∀ pid, s.Streams pid → viewOf pid s.progs = some (A.new pid) ∧ ofStream pid qs = ((units pid).map Prod.snd).flatten ∧
      TsSpec.Counted (c pid) (ofStream pid qs) ∧ ∀ u ∈ units pid, u.1.Ok ∧ TsSpec.Carries u.1 u.2) :
    ∃ s', s.session H more = .ok s' ∧ (∀ f, s'.fail = some f → f = .memory ∨ f = .handler) ∧
      (s'.fail = none → ∀ pid, s.Streams pid → s'.received pid = s.received pid ++ TsSpec.expected (0, 0) (units pid).dropLast) := by
  have hs := reached_ready H h hf hb hk
  rw [session_push H more (fun _ => hs.inv), hmore]
  obtain ⟨s', h1, h2, h3⟩ := packets_run H qs hs hq
  have hall : ∀ pid a, viewOf pid s.progs = some a → ∃ a' evs, runA a (ofStream pid qs) = (a', evs, false) ∧
      evs.filterMap (Event.received pid) = TsSpec.expected (0, 0) (units pid).dropLast := by
    intro pid a ha
    obtain ⟨u1, u2, u3, u4⟩ := hu pid (by rw [St.Streams, ha]; rfl)
    rw [u1] at ha
    cases ha
    rw [u2] at u3 ⊢
    exact run_all (a := A.new pid) (units pid) ⟨rfl, rfl, .inl rfl⟩ u4 u3
  refine ⟨s', h1, fun f hf => ?_, fun hf pid hp => ?_⟩
  · rcases h3 f hf with h | h | ⟨h, pid, a, n, ha, hbad⟩
    · exact .inl h
    · exact .inr h
    · obtain ⟨a', evs, k1, _⟩ := hall pid a ha
      have := runA_take (a := a) (qs := ofStream pid qs) (rs := ofStream pid (qs.take n)) (ts := ofStream pid (qs.drop n)) (by rw [k1])
        (by rw [ofStream, ofStream, ofStream, ← List.filter_append, List.take_append_drop])
      rw [this] at hbad
      cases hbad
  · obtain ⟨_, hr⟩ := h2 hf
    obtain ⟨a, ha⟩ := Option.isSome_iff_exists.mp hp
    obtain ⟨a', evs, k1, k2⟩ := hall pid a ha
    have hl := hr.log pid
    rw [ha] at hl
    simp only [k1] at hl
    rw [St.received, filterMap_ofPid, hl, List.filterMap_append, ← filterMap_ofPid, St.received, k2]

end Verif.Ts
