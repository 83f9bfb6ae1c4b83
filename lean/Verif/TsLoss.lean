import Verif.TsPes

/-!
# MPEG-TS: packets are lost
-/

namespace Verif.Ts

open TsSpec (Packet Pes)

theorem stepA_keep {a : A} {q : Packet} (hs : q.start = true) (hc : a.chain ≠ []) (hf : flushA a = .keep) :
    (stepA a q).1 = { a with corrupt := a.corrupt || skipped a.cont q.cont, cont := some q.cont, chain := [q.payload] } ∧
    (stepA a q).2.1 = none := by
  have hn : nextA a q.start = (a, none, false) := by
    simp only [nextA]
    rw [if_pos ⟨hs, hc⟩, hf]
  unfold stepA
  simp only [hn, Bool.false_eq_true, if_false]
  unfold addA
  have ha : appendA q.start a.chain q.payload = [q.payload] := by simp [appendA, hs, hc]
  simp only [if_neg hc, ha, and_self]

theorem stepA_end {a : A} {q : Packet} (hs : q.start = true) (hc : a.chain ≠ []) (hf : flushA a = .bad) :
    (stepA a q).2 = (none, true) := by
  have hn : nextA a q.start = (a, none, true) := by
    simp only [nextA]
    rw [if_pos ⟨hs, hc⟩, hf]
  unfold stepA
  simp only [hn, if_true]

theorem flushA_corrupt {a : A} (h : a.corrupt = true) {pts dts : Nat} {c : Bool} {ev : Option Event}
    (hf : flushA a = .done pts dts c ev) : ev = none := by
  unfold flushA at hf
  split at hf
  · cases hf
  · cases hf
  · split at hf
    · cases hf
      rfl
    · split at hf
      · cases hf
      · cases hf
      · simp only [h, true_or, if_true] at hf
        cases hf
        rfl

/-- The stream while packets are lost: `t` is what was not yet sent of the present PES packet, `c` the counter of the next packet that
is sent, `k` the number of packets that were lost since one arrived. -/
structure Loss (us : List (Pes × List Packet)) (a : A) (k c : Nat) (t : List Packet) : Prop where
  next : (a.cont = none ∧ a.chain = []) ∨ ∃ l, a.cont = some l ∧ (l + 1 + k) % 16 = c
  held : a.chain = [] ∨ a.corrupt = true ∨ ∃ u ∈ us, ∃ pre suf, u.2 = pre ++ suf ∧ pre ≠ [] ∧ a.chain = pre.map Packet.payload ∧
    (k = 0 → suf = t)

/-- An event is of a PES packet that was sent. -/
def GoodEv (us : List (Pes × List Packet)) (ev : Event) : Prop :=
  ∀ pid r, ev.received pid = some r → ∃ u ∈ us, TsSpec.Of u.1 r

theorem loss_lost {us : List (Pes × List Packet)} {a : A} {k c : Nat} {t t' : List Packet} (h : Loss us a k c t) :
    Loss us a (k + 1) ((c + 1) % 16) t' := by
  refine ⟨?_, ?_⟩
  · rcases h.next with h | ⟨l, h1, h2⟩
    · exact .inl h
    · exact .inr ⟨l, h1, by omega⟩
  · rcases h.held with h | h | ⟨u, h1, pre, suf, h2, h3, h4, h5⟩
    · exact .inl h
    · exact .inr (.inl h)
    · exact .inr (.inr ⟨u, h1, pre, suf, h2, h3, h4, fun h => by omega⟩)

/-- A packet that does not start. -/
theorem loss_more {us : List (Pes × List Packet)} {a : A} {k c : Nat} {q : Packet} {t : List Packet} (h : Loss us a k c (q :: t))
    (hq : q.start = false) (hc : q.cont = c) (hk : k ≤ 15) :
    (stepA a q).2.1 = none ∧ Loss us (stepA a q).1 0 ((c + 1) % 16) t := by
  by_cases he : a.chain = []
  · rw [stepA_idle hq he]
    exact ⟨rfl, .inr ⟨_, rfl, by rw [hc]⟩, .inl rfl⟩
  · rw [stepA_more hq he]
    refine ⟨rfl, .inr ⟨_, rfl, by rw [hc]⟩, .inr ?_⟩
    rcases h.held with h1 | h1 | ⟨u, h1, pre, suf, h2, h3, h4, h5⟩
    · exact absurd h1 he
    · left
      simp [h1]
    · by_cases hk0 : k = 0
      · right
        have := h5 hk0
        subst this
        refine ⟨u, h1, pre ++ [q], t, by rw [h2]; simp, by simp, by simp [h4], fun _ => rfl⟩
      · left
        rcases h.next with ⟨_, h6⟩ | ⟨l, h6, h7⟩
        · exact absurd h6 he
        · simp only [h6, skipped, Bool.or_eq_true]
          right
          have : ¬ q.cont = (l + 1) % 16 := by omega
          simpa using this

/-- A packet that starts. -/
theorem loss_start {us : List (Pes × List Packet)} (hus : ∀ u ∈ us, u.1.Ok ∧ TsSpec.Carries u.1 u.2) {a : A} {k c : Nat} {q : Packet}
    {t : List Packet} (h : Loss us a k c []) (hq : q.start = true) (hc : q.cont = c) {p : Pes} (hu : (p, q :: t) ∈ us) :
    (∀ ev ∈ (stepA a q).2.1.toList, GoodEv us ev) ∧
    ((stepA a q).2.2 = false → Loss us (stepA a q).1 0 ((c + 1) % 16) t) := by
  have hnew : ∀ a' : A, a'.cont = some q.cont → a'.chain = [q.payload] → Loss us a' 0 ((c + 1) % 16) t := by
    intro a' h1 h2
    exact ⟨.inr ⟨_, h1, by rw [hc]⟩, .inr (.inr ⟨_, hu, [q], t, rfl, by simp, by rw [h2]; rfl, fun _ => rfl⟩)⟩
  by_cases he : a.chain = []
  · rw [stepA_first hq he]
    exact ⟨by simp, fun _ => hnew _ rfl rfl⟩
  · cases hf : flushA a with
    | keep =>
      obtain ⟨h1, h2⟩ := stepA_keep hq he hf
      rw [h2, h1]
      exact ⟨by simp, fun _ => hnew _ rfl rfl⟩
    | bad =>
      rw [stepA_end hq he hf]
      exact ⟨by simp, fun h => by cases h⟩
    | done pts dts co ev =>
      rw [stepA_flush hq he hf, stepA_first hq rfl]
      refine ⟨fun e hev => ?_, fun _ => hnew _ rfl rfl⟩
      simp only [Option.mem_toList] at hev
      subst hev
      rcases h.held with h1 | h1 | ⟨u, h1, pre, suf, h2, h3, h4, h5⟩
      · exact absurd h1 he
      · cases flushA_corrupt h1 hf
      · obtain ⟨o1, o2⟩ := hus u h1
        obtain ⟨_, br, rfl, g2, g3, g4, _⟩ := flushA_part (p := u.1) o1 (by
          rw [h4, ← o2.bytes, h2, List.map_append, List.flatten_append]
          exact List.prefix_append _ _) hf
        intro pid r hr
        simp only [Event.received] at hr
        split at hr
        · cases hr
          exact ⟨u, h1, rfl, ⟨_, g4⟩, g2, g3⟩
        · cases hr

theorem run_loss {us : List (Pes × List Packet)} (hus : ∀ u ∈ us, u.1.Ok ∧ TsSpec.Carries u.1 u.2) {k : Nat} {sent rcv : List Packet}
    (hl : TsSpec.Lossy k sent rcv) : ∀ (a : A) (c : Nat) (t : List Packet) (vs : List (Pes × List Packet)), Loss us a k c t →
    (∀ x ∈ t, x.start = false) → (∀ v ∈ vs, v ∈ us) → sent = t ++ (vs.map Prod.snd).flatten → TsSpec.Counted c sent → k ≤ 15 →
    ∀ ev ∈ (runA a rcv).2.1, GoodEv us ev := by
  induction hl with
  | nil k => intro a c t vs _ _ _ _ _ _ ev hev; cases hev
  | lost hk hl ih =>
    rename_i k q s r
    intro a c t vs h ht hvs hs hcount _
    obtain ⟨hc, hcount⟩ := hcount
    cases t with
    | cons x t =>
      simp only [List.cons_append, List.cons.injEq] at hs
      obtain ⟨rfl, hs⟩ := hs
      exact ih a _ t vs (loss_lost h) (fun x hx => ht x (by simp [hx])) hvs hs hcount (by omega)
    | nil =>
      cases vs with
      | nil => cases hs
      | cons v vs =>
        obtain ⟨_, o2⟩ := hus v (hvs v (by simp))
        obtain ⟨q', t', hv, h1, h2⟩ := o2.start
        simp only [List.nil_append, List.map_cons, List.flatten_cons, hv, List.cons_append, List.cons.injEq] at hs
        obtain ⟨rfl, hs⟩ := hs
        exact ih a _ t' vs (loss_lost h) h2 (fun v hv => hvs v (by simp [hv])) hs hcount (by omega)
  | arrives hl ih =>
    rename_i k q s r
    intro a c t vs h ht hvs hs hcount hk
    obtain ⟨hc, hcount⟩ := hcount
    have key : ∀ (t' : List Packet) (vs' : List (Pes × List Packet)), s = t' ++ (vs'.map Prod.snd).flatten → (∀ x ∈ t', x.start = false) → (∀ v ∈ vs', v ∈ us) →
        (∀ ev ∈ (stepA a q).2.1.toList, GoodEv us ev) →
        ((stepA a q).2.2 = false → Loss us (stepA a q).1 0 ((c + 1) % 16) t') →
        ∀ ev ∈ (runA a (q :: r)).2.1, GoodEv us ev := by
      intro t' vs' h1 h2 h3 h4 h5 ev hev
      cases hb : (stepA a q).2.2 with
      | true =>
        simp only [runA, hb, if_true] at hev
        exact h4 ev hev
      | false =>
        rw [runA_cons _ hb] at hev
        rcases List.mem_append.mp hev with h | h
        · exact h4 ev h
        · exact ih _ _ t' vs' (h5 hb) h2 h3 h1 hcount (by omega) ev h
    cases t with
    | cons x t =>
      simp only [List.cons_append, List.cons.injEq] at hs
      obtain ⟨rfl, hs⟩ := hs
      obtain ⟨h1, h2⟩ := loss_more h (ht q (by simp)) hc hk
      exact key t vs hs (fun x hx => ht x (by simp [hx])) hvs (by rw [h1]; simp) (fun _ => h2)
    | nil =>
      cases vs with
      | nil => cases hs
      | cons v vs =>
        obtain ⟨_, o2⟩ := hus v (hvs v (by simp))
        obtain ⟨q', t', hv, h1, h2⟩ := o2.start
        simp only [List.nil_append, List.map_cons, List.flatten_cons, hv, List.cons_append, List.cons.injEq] at hs
        obtain ⟨rfl, hs⟩ := hs
        obtain ⟨g1, g2⟩ := loss_start hus h h1 hc (p := v.1) (t := t') (by
          rw [← hv]
          exact hvs v (by simp))
        exact key t' vs hs h2 (fun v hv => hvs v (by simp [hv])) g1 g2

/-! ## C76 -/

/-- C76, in part: when packets of a stream are lost on the way, never more than 15 in a row, then everything that is received of it is
of a PES packet that was sent: the stream id and the times are its own, and the data are its data if its length is written.

Missing: when the length is not written the data may be only the first part (see `a_truncated_packet_is_received` in TsCases). -/
theorem received_was_sent_partial (H : Handler) (memLimit : Nat) (calls more : List (List (List UInt8))) (s : St)
    (h : (St.init memLimit).session H calls = .ok s) (hf : s.fail = none) (hb : s.buf = none) (hk : s.Known)
    (qs : List Packet) (hmore : more.flatten.flatten = bytesOf qs) (hq : ∀ q ∈ qs, q.Ok) (s' : St) (hs' : s.session H more = .ok s')
    (hf' : s'.fail = none) (pid : Nat) (hp : viewOf pid s.progs = some (A.new pid)) (us : List (Pes × List Packet)) (c : Nat)
    (hu : ∀ u ∈ us, u.1.Ok ∧ TsSpec.Carries u.1 u.2) (hcount : TsSpec.Counted c (us.map Prod.snd).flatten)
    (hl : TsSpec.Lossy 0 (us.map Prod.snd).flatten (ofStream pid qs)) :
    ∃ rs, s'.received pid = s.received pid ++ rs ∧ ∀ r ∈ rs, ∃ u ∈ us, TsSpec.Of u.1 r := by
  have hs := reached_ready H h hf hb hk
  rw [session_push H more (fun _ => hs.inv), hmore] at hs'
  obtain ⟨s1, h1, h2, h3⟩ := packets_run H qs hs hq
  rw [h1] at hs'
  cases hs'
  obtain ⟨_, hr⟩ := h2 hf'
  have hl' := hr.log pid
  rw [hp] at hl'
  simp only at hl'
  refine ⟨(runA (A.new pid) (ofStream pid qs)).2.1.filterMap (Event.received pid), ?_, fun r hr => ?_⟩
  · rw [St.received, filterMap_ofPid, hl', List.filterMap_append, ← filterMap_ofPid, St.received]
  · obtain ⟨ev, hev, her⟩ := List.mem_filterMap.mp hr
    exact run_loss hu hl (A.new pid) c [] us ⟨.inl ⟨rfl, rfl⟩, .inl rfl⟩ (by simp) (fun _ h => h) rfl hcount (by omega) ev hev pid r her

end Verif.Ts
