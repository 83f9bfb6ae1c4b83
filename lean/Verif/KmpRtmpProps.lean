import Verif.KmpRtmpLanes
import Verif.RtmpDeliver

/-!
# KMP to RTMP: properties
-/

namespace Verif.KmpRtmp

open Verif.RtmpSpec
open Verif.Rtmp (Cfg T3 Sess Run Waits newSess flatH ModeOk Msg.flat Fails)
open Verif.KmpRtmpSpec (St Sp act acts messages ctl connectMess sizeMess)

/-- How often a stream is published. -/
def published : List Ev → Nat
  | [] => 0
  | .publish _ :: vs => published vs + 1
  | _ :: vs => published vs

/-- The start of a connection. -/
theorem connect_coded {e : Env} (he : EnvOk e) (cn : Connect) {size : Nat} (period : Nat) (hl : (connectMess e cn).payload.length < 2 ^ 32) :
    ∃ b1 b2, connect e cn size period = .ok { size, period, out := b1 ++ b2 } ∧ Coded 128 0 0 (connectMess e cn) b1 ∧ Coded 128 0 0 (sizeMess size) b2 := by
  have hne : (connectMess e cn).payload ≠ [] := amf_ne _ _
  have w1 := amfWrite_writes (fmt := 0) (csid := 3) (type := 20) (msid := 0) (ty := always) (size := 128) (fs := amfConnect e cn 1) (by omega) (by omega)
    (by simp [amfConnect, Fld.Ok, Leaf.Ok, he.dbl]) (by rw [connect_amf]; exact hne) (by rw [connect_amf]; exact hl) 0
  obtain ⟨b1, a1, a2⟩ := w1
  rw [connect_amf] at a2
  obtain ⟨H, hH⟩ : ∃ H, H = writeHeader ⟨0, 2, 0, 4, 1, 0⟩ := ⟨_, rfl⟩
  have hHl : H.length = 12 := by rw [hH]; rfl
  have h4 : (out32 size).length = 4 := rfl
  have w2 : Writes (fun x => store x.1 x.2 H >>= fun mem => store mem (x.2 + 12) (out32 size) >>= fun mem => .ok (mem, x.2 + 12 + 4)) (12 + 4) (H ++ out32 size) := by
    refine ⟨by rw [List.length_append, hHl, h4], ?_⟩
    intro pre g fin hg
    have e1 : pre ++ (g ++ fin) = pre ++ (g.take 12 ++ (g.drop 12 ++ fin)) := by
      rw [← List.append_assoc (g.take 12), List.take_append_drop]
    simp only []
    rw [e1, store_mid rfl (by rw [List.length_take]; omega)]
    show (store _ _ _ >>= _) = _
    rw [← List.append_assoc pre H, store_mid (by rw [List.length_append]; omega) (by rw [List.length_drop]; omega)]
    simp only [List.append_assoc]
    rfl
  refine ⟨b1, H ++ out32 size, ?_, a2, [out32 size], ⟨?_, by simp, ?_⟩, ?_⟩
  · have := writes_fill (he.fresh _) (writes_then a1 w2)
    have : fill e (connectSize e cn) (connectWrite e cn size) = .ok (b1 ++ (H ++ out32 size)) := by
      rw [hH] at this ⊢
      exact this
    unfold connect
    rw [this]
    rfl
  · simp [sizeMess, out32_be32]
  · show (out32 size).length ≤ 128
    rw [h4]
    omega
  · rw [hH]
    simp [chunked, sizeMess, be32]

theorem act_count {e : Env} {p p' : Sp} {v : Ev} {ms : List (Mess × Nat)} (ha : act e p v = some (p', ms)) : p'.count = p.count + published [v] := by
  cases v with
  | publish name =>
    simp only [act, Option.some.injEq, Prod.mk.injEq] at ha
    obtain ⟨rfl, rfl⟩ := ha
    rfl
  | sound n codec rate bits channels =>
    simp only [act] at ha
    split at ha
    · simp at ha
    · simp only [Option.some.injEq, Prod.mk.injEq] at ha
      obtain ⟨rfl, rfl⟩ := ha
      rfl
  | start n m =>
    simp only [act] at ha
    split at ha
    · simp at ha
    · split at ha
      · simp at ha
      · simp only [Option.some.injEq, Prod.mk.injEq] at ha
        obtain ⟨rfl, rfl⟩ := ha
        rfl
  | frame n codec f =>
    simp only [act] at ha
    split at ha
    · simp at ha
    · split at ha
      · simp at ha
      · split at ha
        · simp only [Option.some.injEq, Prod.mk.injEq] at ha
          obtain ⟨rfl, rfl⟩ := ha
          rfl
        · simp at ha
  | unpublish n =>
    simp only [act] at ha
    split at ha
    · simp at ha
    · simp only [Option.some.injEq, Prod.mk.injEq] at ha
      obtain ⟨rfl, rfl⟩ := ha
      rfl

theorem published_cons (v : Ev) (vs : List Ev) : published (v :: vs) = published [v] + published vs := by
  cases v <;> simp [published, Nat.add_comm]

theorem steps_ok {e : Env} (he : EnvOk e) : ∀ (vs : List Ev) {c : Conn} {p : Sp} {ms : List (Mess × Nat)}, Base c p → 8 ≤ c.size → c.size < 2 ^ 63 → (∀ v ∈ vs, EvOk v) →
    c.lastMsid + published vs < 2 ^ 32 - 1 → acts e p vs = some ms → (∀ x ∈ ms, x.1.payload.length < 2 ^ 32) → ∃ c', steps e c vs = .ok c' := by
  intro vs
  induction vs with
  | nil => intro c p ms _ _ _ _ _ _ _; exact ⟨c, rfl⟩
  | cons v vs ih =>
    intro c p ms hb h8 h63 hv hn ha hl
    simp only [acts] at ha
    cases hact : act e p v with
    | none => rw [hact] at ha; simp at ha
    | some y =>
      obtain ⟨p', m1⟩ := y
      rw [hact] at ha
      simp only [] at ha
      cases hacts : acts e p' vs with
      | none => rw [hacts] at ha; simp at ha
      | some m2 =>
        rw [hacts] at ha
        simp only [Option.some.injEq] at ha
        subst ha
        have hpc := published_cons v vs
        obtain ⟨c1, bs, k1, k2, k3, k4, -⟩ := step_coded he hb h8 h63 (hv v (List.mem_cons_self ..)) (by omega) hact (fun x hx => hl x (List.mem_append_left _ hx))
        have hcnt := act_count hact
        rw [k4.count, hb.count] at hcnt
        obtain ⟨c', hc'⟩ := ih k4 (by rw [k3]; exact h8) (by rw [k3]; exact h63) (fun w hw => hv w (List.mem_cons_of_mem _ hw)) (by omega) hacts
          (fun x hx => hl x (List.mem_append_right _ hx))
        exact ⟨c', by rw [steps, k1]; exact hc'⟩

theorem base_start (size period : Nat) (out : Bytes) : Base { size, period, out } { period } := ⟨rfl, rfl, rfl, rfl, by simp⟩

/-- C110: the sizes that are computed are those that are written, and nothing is written outside of the buffers. -/
theorem buffers_fit {e : Env} (he : EnvOk e) (cn : Connect) {size period : Nat} {vs : List Ev} {ms : List (Mess × Nat)} (h1 : 8 ≤ size) (h2 : size < 2 ^ 63) (hv : ∀ v ∈ vs, EvOk v)
    (hn : published vs < 2 ^ 32 - 1) (hm : messages e cn size period vs = some ms) (hl : ∀ x ∈ ms, x.1.payload.length < 2 ^ 32) :
    ∃ c, session e cn size period vs = .ok c := by
  unfold messages at hm
  cases ha : acts e { period } vs with
  | none => rw [ha] at hm; simp at hm
  | some l =>
    rw [ha] at hm
    simp only [Option.map_some, Option.some.injEq] at hm
    subst hm
    obtain ⟨b1, b2, k1, -⟩ := connect_coded he cn (size := size) period (hl _ (List.mem_cons_self ..))
    obtain ⟨c, hc⟩ := steps_ok he vs (base_start size period (b1 ++ b2)) h1 h2 hv (by simpa using hn) ha
      (fun x hx => hl x (List.mem_cons_of_mem _ (List.mem_cons_of_mem _ hx)))
    exact ⟨c, by unfold session; rw [k1]; exact hc⟩

theorem lows_self {ms : List (Mess × Nat)} {maxId : Nat} (h : ∀ x ∈ ms, Ranged maxId x) : lows ms = ms := by
  unfold lows
  conv => rhs; rw [← List.map_id ms]
  refine List.map_congr_left fun x hx => ?_
  obtain ⟨m, f⟩ := x
  have := (h _ hx).one
  simp only [low, id]
  rw [Nat.mod_eq_of_lt (by simp only at this; omega)]

theorem steps_sends {e : Env} (he : EnvOk e) {T : Terms} {maxId maxLen : Nat} : ∀ (vs : List Ev) {c : Conn} {p : Sp} {ms : List (Mess × Nat)} {S : Sender} {prev : Prevs}, Base c p →
    Clean S prev → S.size = c.size → Lanes p prev → 8 ≤ c.size → c.size < 2 ^ 63 → (∀ v ∈ vs, EvOk v) → c.lastMsid + published vs ≤ 60 → c.lastMsid + published vs + 3 < maxId →
    acts e p vs = some ms → (∀ x ∈ ms, Fine T maxLen c.size x) →
    ∃ c' bs S', steps e c vs = .ok c' ∧ c'.out = c.out ++ bs ∧ SendsAll ctl T maxId maxLen S bs S' ∧ S'.sent = S.sent ++ ms.map (·.1) := by
  intro vs
  induction vs with
  | nil =>
    intro c p ms S prev _ _ _ _ _ _ _ _ _ ha _
    simp only [acts, Option.some.injEq] at ha
    subst ha
    exact ⟨c, [], S, rfl, by simp, .done S, by simp⟩
  | cons v vs ih =>
    intro c p ms S prev hb hcl hsz hla h8 h63 hv hn hid ha hl
    simp only [acts] at ha
    cases hact : act e p v with
    | none => rw [hact] at ha; simp at ha
    | some y =>
      obtain ⟨p', m1⟩ := y
      rw [hact] at ha
      simp only [] at ha
      cases hacts : acts e p' vs with
      | none => rw [hacts] at ha; simp at ha
      | some m2 =>
        rw [hacts] at ha
        simp only [Option.some.injEq] at ha
        subst ha
        have hpc := published_cons v vs
        have hcnt := act_count hact
        rw [hb.count] at hcnt
        obtain ⟨c1, bs, k1, k2, k3, k4, k5⟩ := step_coded he hb h8 h63 (hv v (List.mem_cons_self ..)) (by omega) hact
          (fun x hx => by have := (hl x (List.mem_append_left _ hx)).1; omega)
        obtain ⟨f1, f2, f3⟩ := act_fits (T := T) (maxId := maxId) hla hact (by omega) (by omega)
        rw [lows_self f3] at k5
        obtain ⟨S1, j1, j2, j3, j4⟩ := batch_sends k5 hcl hsz f1 f3 (fun x hx => hl x (List.mem_append_left _ hx))
        have hc1 : c1.lastMsid = c.lastMsid + published [v] := by rw [← k4.count]; exact hcnt
        obtain ⟨c', bs', S', i1, i2, i3, i4⟩ := ih k4 j4 (by rw [j3, k3]) f2 (by rw [k3]; exact h8) (by rw [k3]; exact h63) (fun w hw => hv w (List.mem_cons_of_mem _ hw))
          (by omega) (by omega) hacts (fun x hx => by rw [k3]; exact hl x (List.mem_append_right _ hx))
        exact ⟨c', bs ++ bs', S', by rw [steps, k1]; exact i1, by rw [i2, k2, List.append_assoc], sendsAll_trans j1 i3, by rw [i4, j2]; simp⟩

theorem be32_num {n : Nat} (h : n < 2 ^ 32) : (be32 n).foldl (fun a b => a * 256 + b.toNat) 0 = n := by
  simp [be32]
  omega

/-- C111: the bytes are chunks after the specification, and the messages are those that should be sent. -/
theorem stream_partial {e : Env} (he : EnvOk e) (cn : Connect) {T : Terms} {maxId maxLen size period : Nat} {vs : List Ev} {ms : List (Mess × Nat)} (h1 : 128 ≤ size)
    (h2 : size ≤ 10485760) (hv : ∀ v ∈ vs, EvOk v) (hn : published vs ≤ 60) (hid : published vs + 3 < maxId) (hm : messages e cn size period vs = some ms)
    (hl : ∀ x ∈ ms, x.1.payload.length < 2 ^ 24 ∧ x.1.payload.length ≤ maxLen ∧ Calm T size x.2 x.1.payload.length) :
    ∃ c S, session e cn size period vs = .ok c ∧ Stream ctl T maxId maxLen c.out S ∧ S.sent = ms.map (·.1) := by
  unfold messages at hm
  cases ha : acts e { period } vs with
  | none => rw [ha] at hm; simp at hm
  | some l =>
    rw [ha] at hm
    simp only [Option.map_some, Option.some.injEq] at hm
    subst hm
    have hl1 := hl _ (List.mem_cons_self ..)
    obtain ⟨b1, b2, k1, k2, k3⟩ := connect_coded he cn (size := size) period (by have := hl1.1; simp only at this; omega)
    have hcalm : ∀ n, Calm T 128 0 n := fun n => .inl (by unfold big; omega)
    obtain ⟨S1, i1, i2, i3, i4⟩ := one_sends (T := T) (maxId := maxId) (maxLen := maxLen) (S := {}) (prev := fun _ => none) (fun _ => rfl) k2 (by omega) ⟨rfl, rfl⟩ (by simp [connectMess, KmpRtmpSpec.command])
      (by simp [connectMess, KmpRtmpSpec.command]) (by simp [connectMess, KmpRtmpSpec.command]; omega) (by simp [connectMess, KmpRtmpSpec.command]) (by simp [connectMess, KmpRtmpSpec.command])
      (by simp [connectMess, KmpRtmpSpec.command]) (by omega) ⟨hl1.1, hl1.2.1, hcalm _⟩ (ctl_other (by simp [connectMess, KmpRtmpSpec.command])) (by simp)
    have hl2 := hl _ (List.mem_cons_of_mem _ (List.mem_cons_self ..))
    have i3 : S1.size = 128 := i3
    have hsz : ctl (S1.sent ++ [sizeMess size]) = some [size] := by
      have : be32 size = (sizeMess size).payload := rfl
      simp only [ctl, List.getLast?_append, List.getLast?_singleton, Option.some_or]
      rw [if_pos (show (sizeMess size).type = 1 from rfl), ← this, be32_num (by omega)]
    obtain ⟨S2, j1, j2, j3, j4⟩ := one_sends (T := T) (maxId := maxId) (maxLen := maxLen) (m := sizeMess size) (fmt := 0) (field := 0) (sizes := [size]) i4 (by rw [i3]; exact k3) (by omega)
      (by show Fits T 0 0 _ (upd _ _ _ _ 2); exact ⟨rfl, rfl⟩) (by simp [sizeMess]) (by simp [sizeMess]) (by simp [sizeMess]; omega) (by simp [sizeMess]) (by simp [sizeMess])
      (by simp [sizeMess]) (by omega) ⟨hl2.1, hl2.2.1, by rw [i3]; exact hcalm _⟩ hsz (by simp; omega)
    have hla : Lanes { period } (upd (upd (fun _ => none) 0 0 (connectMess e cn)) 0 0 (sizeMess size)) :=
      ⟨⟨_, rfl, rfl, rfl⟩, by simp⟩
    obtain ⟨c, bs, S, r1, r2, r3, r4⟩ := steps_sends he (T := T) (maxId := maxId) (maxLen := maxLen) vs (base_start size period (b1 ++ b2)) j4 j3 hla (by show 8 ≤ size; omega) (by show size < _; omega)
      hv (by show 0 + published vs ≤ 60; omega) (by show 0 + published vs + 3 < maxId; omega) ha (fun x hx => hl x (List.mem_cons_of_mem _ (List.mem_cons_of_mem _ hx)))
    refine ⟨c, S, by unfold session; rw [k1]; exact r1, ?_, ?_⟩
    · rw [r2]
      have := Stream.sendsAll (sendsAll_trans (sendsAll_trans i1 j1) r3) Stream.init
      simpa using this
    · rw [r4, j2, i2]
      simp

/-- C112: an nginx server with the RTMP module gets exactly these messages, in the mode in which type 3 chunks have no extended timestamp. -/
theorem received_partial {e : Env} (he : EnvOk e) (cn : Connect) {g : Cfg} {size period : Nat} {vs : List Ev} {ms : List (Mess × Nat)} (h1 : 128 ≤ size)
    (h2 : size ≤ 10485760) (hv : ∀ v ∈ vs, EvOk v) (hn : published vs ≤ 60) (hid : published vs + 3 < g.maxStreams) (hm : messages e cn size period vs = some ms)
    (hl : ∀ x ∈ ms, x.1.payload.length < 2 ^ 24 ∧ x.1.payload.length ≤ g.maxMessage) :
    ∃ c, session e cn size period vs = .ok c ∧ (∀ more, ¬ Fails g (flatH ctl) (newSess g .off) (c.out.take more)) ∧
      ∀ s, Run g (flatH ctl) (newSess g .off) c.out s → Waits s → s.log.map Msg.flat = ms.map (·.1) := by
  obtain ⟨c, S, k1, k2, k3⟩ := stream_partial he cn (T := ⟨false, true, true, false⟩) (maxId := g.maxStreams) (maxLen := g.maxMessage) h1 h2 hv hn hid hm
    (fun x hx => ⟨(hl x hx).1, (hl x hx).2, .inr ⟨rfl, .inl rfl⟩⟩)
  have hmode : ModeOk ⟨false, true, true, false⟩ .off := .inr (.inr (.inl ⟨rfl, rfl⟩))
  refine ⟨c, k1, fun more => ?_, fun s hr hw => ?_⟩
  · exact Verif.Rtmp.sender_kept_partial (more := c.out.drop more) hmode rfl (by rw [List.take_append_drop]; exact k2)
  · rw [(Verif.Rtmp.sent_received_partial hmode rfl k2 hr hw).1, k3]

/-- The same in any mode, when no time needs an extended timestamp. -/
theorem received_any_partial {e : Env} (he : EnvOk e) (cn : Connect) {g : Cfg} {t3 : T3} {size period : Nat} {vs : List Ev} {ms : List (Mess × Nat)} (h1 : 128 ≤ size)
    (h2 : size ≤ 10485760) (hv : ∀ v ∈ vs, EvOk v) (hn : published vs ≤ 60) (hid : published vs + 3 < g.maxStreams) (hm : messages e cn size period vs = some ms)
    (hl : ∀ x ∈ ms, x.1.payload.length < 2 ^ 24 ∧ x.1.payload.length ≤ g.maxMessage ∧ x.2 < big) :
    ∃ c, session e cn size period vs = .ok c ∧ (∀ more, ¬ Fails g (flatH ctl) (newSess g t3) (c.out.take more)) ∧
      ∀ s, Run g (flatH ctl) (newSess g t3) c.out s → Waits s → s.log.map Msg.flat = ms.map (·.1) := by
  obtain ⟨c, S, k1, k2, k3⟩ := stream_partial he cn (T := ⟨true, false, false, false⟩) (maxId := g.maxStreams) (maxLen := g.maxMessage) h1 h2 hv hn hid hm
    (fun x hx => ⟨(hl x hx).1, (hl x hx).2.1, .inl (hl x hx).2.2⟩)
  have hmode : ModeOk ⟨true, false, false, false⟩ t3 := .inl rfl
  refine ⟨c, k1, fun more => ?_, fun s hr hw => ?_⟩
  · exact Verif.Rtmp.sender_kept_partial (more := c.out.drop more) hmode rfl (by rw [List.take_append_drop]; exact k2)
  · rw [(Verif.Rtmp.sent_received_partial hmode rfl k2 hr hw).1, k3]

/-! ## Tags -/

theorem rd24_si24 {x : Int} (h1 : -2 ^ 23 ≤ x) (h2 : x < 2 ^ 23) : ∃ a b c, KmpRtmpSpec.si24 x = [a, b, c] ∧ KmpRtmpSpec.rd24 a b c = x := by
  refine ⟨_, _, _, rfl, ?_⟩
  unfold KmpRtmpSpec.rd24
  simp only [UInt8.toNat_ofNat']
  obtain ⟨n, hn⟩ : ∃ n : Nat, x % 2 ^ 24 = n := ⟨_, (Int.toNat_of_nonneg (by omega)).symm⟩
  have hlt : n < 2 ^ 24 := by omega
  rw [hn]
  simp only [Int.toNat_natCast]
  have : n / 65536 % 2 ^ 8 * 65536 + n / 256 % 2 ^ 8 * 256 + n % 2 ^ 8 = n := by omega
  rw [this]
  split <;> omega

/-- C113: a video frame is read as it was: key frame or not, codec, composition time and data. -/
theorem video_read {e : Env} {p p' : Sp} {n codec : Nat} {f : Frame} {m : Mess} {field : Nat} {rest : List (Mess × Nat)} (hc : codec = 7 ∨ codec = 8) (h1 : -2 ^ 23 ≤ f.pts)
    (h2 : f.pts < 2 ^ 23) (ha : act e p (.frame n codec f) = some (p', (m, field) :: rest)) :
    m.type = 9 ∧ m.msid = n ∧ (m.ts : Int) = f.dts % 2 ^ 32 ∧ KmpRtmpSpec.readVideo m.payload = some (f.flags % 2 == 1, codec, 1, f.pts, f.data.flatten) := by
  simp only [act] at ha
  cases hf : p.find n with
  | none => rw [hf] at ha; simp at ha
  | some s =>
    rw [hf] at ha
    simp only [] at ha
    have hid := (sp_find hf).2
    obtain ⟨a, b, c, hs1, hs2⟩ := rd24_si24 h1 h2
    have hts : (((f.dts % 2 ^ 32).toNat : Nat) : Int) = f.dts % 2 ^ 32 := Int.toNat_of_nonneg (by omega)
    rcases hc with rfl | rfl
    · simp only [KmpRtmpSpec.frameTag, if_true] at ha
      split at ha
      · simp only [Option.some.injEq, Prod.mk.injEq, List.cons.injEq] at ha
        obtain ⟨-, ⟨rfl, -⟩, -⟩ := ha
        refine ⟨rfl, hid, hts, ?_⟩
        simp only [KmpRtmpSpec.avcTag, hs1, List.cons_append, List.nil_append]
        cases hk : f.flags % 2 == 1 <;> simp [KmpRtmpSpec.readVideo, hs2]
      · simp at ha
    · simp only [KmpRtmpSpec.frameTag] at ha
      rw [if_neg (by omega), if_pos trivial] at ha
      simp only [] at ha
      split at ha
      · simp only [Option.some.injEq, Prod.mk.injEq, List.cons.injEq] at ha
        obtain ⟨-, ⟨rfl, -⟩, -⟩ := ha
        refine ⟨rfl, hid, hts, ?_⟩
        have ht : txt "hvc1" = [0x68, 0x76, 0x63, 0x31] := by decide +kernel
        simp only [KmpRtmpSpec.hevcTag, if_true, hs1, ht, List.cons_append, List.nil_append]
        cases hk : f.flags % 2 == 1 <;> simp [KmpRtmpSpec.readVideo, hs2]
      · simp at ha

theorem find_set {p : Sp} {n : Nat} {s s' : St} (h : p.find n = some s) (hs : s'.id = s.id) : (p.set s').find n = some s' := by
  have hn := (sp_find h).2
  unfold Sp.find at h
  unfold Sp.find Sp.set
  simp only []
  generalize p.sts = l at h
  induction l with
  | nil => simp at h
  | cons t l ih =>
    rw [List.find?_cons] at h
    rw [List.map_cons, List.find?_cons]
    by_cases ht : t.id = n
    · rw [if_pos (by omega)]
      simp [hs, hn]
    · have e1 : (t.id == n) = false := by simpa using ht
      rw [e1] at h
      rw [if_neg (by omega), e1]
      exact ih h

/-- C113: an audio frame is read as it was, with what was said about the audio of the stream. -/
theorem audio_read {e : Env} {p p1 p' : Sp} {n codec rate bits channels : Nat} {f : Frame} {m : Mess} {field : Nat} {rest rest' : List (Mess × Nat)} (hc : codec = 1002 ∨ codec = 1010)
    (h1 : act e p (.sound n codec rate bits channels) = some (p1, rest')) (h2 : act e p1 (.frame n codec f) = some (p', (m, field) :: rest)) :
    m.type = 8 ∧ m.msid = n ∧ (m.ts : Int) = f.dts % 2 ^ 32 ∧ ∃ x, KmpRtmpSpec.readAudio m.payload = some x ∧ x.format + 1000 = codec ∧ (x.wide = true ↔ bits ≠ 8) ∧
      (x.stereo = true ↔ channels ≠ 1) ∧ x.packet = (if codec = 1010 then 1 else 0) ∧ x.data = f.data.flatten := by
  simp only [act] at h1
  cases hf : p.find n with
  | none => rw [hf] at h1; simp at h1
  | some s =>
    rw [hf] at h1
    simp only [Option.some.injEq, Prod.mk.injEq] at h1
    obtain ⟨rfl, -⟩ := h1
    simp only [act] at h2
    rw [find_set (s' := { s with sound := KmpRtmpSpec.soundByte (codec - 1000) rate bits channels }) hf rfl] at h2
    simp only [] at h2
    have hid := (sp_find hf).2
    have hts : (((f.dts % 2 ^ 32).toNat : Nat) : Int) = f.dts % 2 ^ 32 := Int.toNat_of_nonneg (by omega)
    obtain ⟨r, hr, hr4⟩ : ∃ r, r = (if rate ≤ 8000 then 0 else if rate ≤ 16000 then 1 else if rate ≤ 32000 then 2 else 3) ∧ r < 4 := ⟨_, rfl, by (repeat' split) <;> omega⟩
    obtain ⟨w, hw, hw2⟩ : ∃ w, w = (if bits = 8 then 0 else 1) ∧ w < 2 := ⟨_, rfl, by split <;> omega⟩
    obtain ⟨k, hk, hk2⟩ : ∃ k, k = (if channels = 1 then 0 else 1) ∧ k < 2 := ⟨_, rfl, by split <;> omega⟩
    have hw' : w = 1 ↔ bits ≠ 8 := by rw [hw]; split <;> simp_all
    have hk' : k = 1 ↔ channels ≠ 1 := by rw [hk]; split <;> simp_all
    simp only [KmpRtmpSpec.frameTag, KmpRtmpSpec.soundByte, ← hr, ← hw, ← hk] at h2
    rcases hc with rfl | rfl
    · rw [if_neg (by omega), if_neg (by omega), if_pos rfl] at h2
      simp only [] at h2
      split at h2
      · simp only [Option.some.injEq, Prod.mk.injEq, List.cons.injEq] at h2
        obtain ⟨-, ⟨rfl, -⟩, -⟩ := h2
        refine ⟨rfl, hid, hts, ⟨2, r, w == 1, k == 1, 0, f.data.flatten⟩, ?_, rfl, by simpa using hw', by simpa using hk', by simp, rfl⟩
        simp only [KmpRtmpSpec.readAudio, List.cons_append, List.nil_append, UInt8.toNat_ofNat']
        rw [Nat.mod_eq_of_lt (by omega : _ < 2 ^ 8)]
        have e1 : ((1002 - 1000) * 16 + r * 4 + w * 2 + k) / 16 = 2 := by omega
        have e2 : ((1002 - 1000) * 16 + r * 4 + w * 2 + k) / 4 % 4 = r := by omega
        have e3 : ((1002 - 1000) * 16 + r * 4 + w * 2 + k) / 2 % 2 = w := by omega
        have e4 : ((1002 - 1000) * 16 + r * 4 + w * 2 + k) % 2 = k := by omega
        rw [e1, e2, e3, e4]
        simp
      · simp at h2
    · rw [if_neg (by omega), if_neg (by omega), if_neg (by omega), if_pos rfl] at h2
      simp only [] at h2
      split at h2
      · simp only [Option.some.injEq, Prod.mk.injEq, List.cons.injEq] at h2
        obtain ⟨-, ⟨rfl, -⟩, -⟩ := h2
        refine ⟨rfl, hid, hts, ⟨10, r, w == 1, k == 1, 1, f.data.flatten⟩, ?_, rfl, by simpa using hw', by simpa using hk', by simp, rfl⟩
        simp only [KmpRtmpSpec.readAudio, List.cons_append, List.nil_append, UInt8.toNat_ofNat']
        rw [Nat.mod_eq_of_lt (by omega : _ < 2 ^ 8)]
        have e1 : ((1010 - 1000) * 16 + r * 4 + w * 2 + k) / 16 = 10 := by omega
        have e2 : ((1010 - 1000) * 16 + r * 4 + w * 2 + k) / 4 % 4 = r := by omega
        have e3 : ((1010 - 1000) * 16 + r * 4 + w * 2 + k) / 2 % 2 = w := by omega
        have e4 : ((1010 - 1000) * 16 + r * 4 + w * 2 + k) % 2 = k := by omega
        rw [e1, e2, e3, e4]
        simp
      · simp at h2

/-- C113: the start of the body that the code writes for a video frame, with the data after it, is read as the frame was. -/
theorem video_tag_read (sc : Ctx) (f : Frame) {codec : Nat} (hc : codec = 7 ∨ codec = 8) (h1 : -2 ^ 23 ≤ f.pts) (h2 : f.pts < 2 ^ 23) :
    ∃ hs tag, frameTag sc f codec = some (hs, 9, tag) ∧ tag.length = hs ∧ KmpRtmpSpec.readVideo (tag ++ f.data.flatten) = some (f.flags % 2 == 1, codec, 1, f.pts, f.data.flatten) := by
  obtain ⟨a, b, c, hs1, hs2⟩ := rd24_si24 h1 h2
  rcases hc with rfl | rfl
  · refine ⟨5, _, by simp only [frameTag, if_true]; rfl, by simp [avc_eq, KmpRtmpSpec.avcTag, hs1], ?_⟩
    rw [avc_eq, key_eq]
    simp only [KmpRtmpSpec.avcTag, hs1, List.cons_append, List.nil_append]
    cases hk : f.flags % 2 == 1 <;> simp [KmpRtmpSpec.readVideo, hs2]
  · have ht : txt "hvc1" = [0x68, 0x76, 0x63, 0x31] := by decide +kernel
    refine ⟨8, _, by simp only [frameTag]; rw [if_neg (by omega), if_pos trivial], by simp [ext_eq (Nat.le_refl 1), KmpRtmpSpec.hevcTag, hs1, ht], ?_⟩
    rw [ext_eq (Nat.le_refl 1), key_eq]
    simp only [KmpRtmpSpec.hevcTag, if_true, hs1, ht, List.cons_append, List.nil_append]
    cases hk : f.flags % 2 == 1 <;> simp [KmpRtmpSpec.readVideo, hs2]

/-- C113: the same for an audio frame after the media info of its track. -/
theorem audio_tag_read (sc : Ctx) (f : Frame) {codec rate bits channels : Nat} (hc : codec = 1002 ∨ codec = 1010) (hs : sc.sound = soundInfo codec rate bits channels) :
    ∃ hs tag x, frameTag sc f codec = some (hs, 8, tag) ∧ tag.length = hs ∧ KmpRtmpSpec.readAudio (tag ++ f.data.flatten) = some x ∧ x.format + 1000 = codec ∧
      (x.wide = true ↔ bits ≠ 8) ∧ (x.stereo = true ↔ channels ≠ 1) ∧ x.packet = (if codec = 1010 then 1 else 0) ∧ x.data = f.data.flatten := by
  obtain ⟨r, hr, hr4⟩ : ∃ r, r = (if rate ≤ 8000 then 0 else if rate ≤ 16000 then 1 else if rate ≤ 32000 then 2 else 3) ∧ r < 4 := ⟨_, rfl, by (repeat' split) <;> omega⟩
  obtain ⟨w, hw, hw2⟩ : ∃ w, w = (if bits = 8 then 0 else 1) ∧ w < 2 := ⟨_, rfl, by split <;> omega⟩
  obtain ⟨k, hk, hk2⟩ : ∃ k, k = (if channels = 1 then 0 else 1) ∧ k < 2 := ⟨_, rfl, by split <;> omega⟩
  have hw' : w = 1 ↔ bits ≠ 8 := by rw [hw]; split <;> simp_all
  have hk' : k = 1 ↔ channels ≠ 1 := by rw [hk]; split <;> simp_all
  have hb : UInt8.ofNat sc.sound = UInt8.ofNat ((codec - 1000) * 16 + r * 4 + w * 2 + k) := by
    rw [hs, sound_eq, hr, hw, hk]; rfl
  rcases hc with rfl | rfl
  · refine ⟨1, [UInt8.ofNat sc.sound], ⟨2, r, w == 1, k == 1, 0, f.data.flatten⟩, rfl, rfl, ?_, rfl, by simpa using hw', by simpa using hk', by simp, rfl⟩
    rw [hb]
    simp only [KmpRtmpSpec.readAudio, List.cons_append, List.nil_append, UInt8.toNat_ofNat']
    rw [Nat.mod_eq_of_lt (by omega : _ < 2 ^ 8)]
    have e1 : ((1002 - 1000) * 16 + r * 4 + w * 2 + k) / 16 = 2 := by omega
    have e2 : ((1002 - 1000) * 16 + r * 4 + w * 2 + k) / 4 % 4 = r := by omega
    have e3 : ((1002 - 1000) * 16 + r * 4 + w * 2 + k) / 2 % 2 = w := by omega
    have e4 : ((1002 - 1000) * 16 + r * 4 + w * 2 + k) % 2 = k := by omega
    rw [e1, e2, e3, e4]
    simp
  · refine ⟨2, [UInt8.ofNat sc.sound, 1], ⟨10, r, w == 1, k == 1, 1, f.data.flatten⟩, rfl, rfl, ?_, rfl, by simpa using hw', by simpa using hk', by simp, rfl⟩
    rw [hb]
    simp only [KmpRtmpSpec.readAudio, List.cons_append, List.nil_append, UInt8.toNat_ofNat']
    rw [Nat.mod_eq_of_lt (by omega : _ < 2 ^ 8)]
    have e1 : ((1010 - 1000) * 16 + r * 4 + w * 2 + k) / 16 = 10 := by omega
    have e2 : ((1010 - 1000) * 16 + r * 4 + w * 2 + k) / 4 % 4 = r := by omega
    have e3 : ((1010 - 1000) * 16 + r * 4 + w * 2 + k) / 2 % 2 = w := by omega
    have e4 : ((1010 - 1000) * 16 + r * 4 + w * 2 + k) % 2 = k := by omega
    rw [e1, e2, e3, e4]
    simp

end Verif.KmpRtmp
