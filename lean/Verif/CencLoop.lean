import Verif.CencInv

/-!
# Common encryption: the loop of the writer of video
-/

namespace Verif.Cenc

/-- Data that cannot be continued to the frames of the fragment. -/
def Bad (P : Par) (all : List Nat) (d : List UInt8) : Prop := ∀ fs, Wf P.n all fs → ∀ t, d ++ t ≠ plains P.n fs

/-- The size of a unit, then the unit; or data that no fragment has. -/
theorem sizeOf_at {P : Par} (hP : P.Ok) {v : Nat} {all : List Nat} {s : V} {dn : List (List (List UInt8))} {f : Nat} {us : List (List UInt8)}
    {hb0 : List UInt8} {c : List UInt8} (h : VAt P v all s dn (.head f us hb0) c) {buf : List UInt8} (hne : buf ≠ []) :
    (∃ s' buf' w dn' ph', s.sizeOf P buf = .ok (s', buf') ∧ buf = w ++ buf' ∧ w ≠ [] ∧ VAt P v all s' dn' ph' (c ++ w) ∧ s'.frames = s.frames) ∨
    s.sizeOf P buf = .err ∧ Bad P all (c ++ buf) := by
  obtain ⟨hb, ⟨g1, g2, g3, g4, g5, g6, g7, g8, g9, g10⟩, _⟩ := h
  have hnd := hb.notDone (by simp)
  have hn1 := hP.n1
  have hn4 := hP.n4
  have hpkt : (s.readLen buf).pkt = (hb0 ++ buf.take s.lenLeft).foldl (fun a b => (a * 256 + b.toNat) % 2 ^ 32) 0 := by
    simp only [V.readLen]; rw [g7, List.foldl_append]
  have hnew : VB P v all (s.readLen buf) dn (.head f us (hb0 ++ buf.take s.lenLeft)) (c ++ buf.take s.lenLeft) := by
    refine ⟨hb.units, hb.frames, ?_, hb.wrote, hb.wb, hb.aux, hb.sizes, ?_, ?_⟩
    · rw [hb.read]; simp [Ph.read]
    · show s.done = true ↔ _
      rw [hnd]; simp
    · show s.done = true → _
      rw [hnd]; simp
  unfold V.sizeOf
  dsimp only
  by_cases hd : buf.drop s.lenLeft = []
  · left
    rw [if_pos hd]
    have hle : buf.length ≤ s.lenLeft := by rw [List.drop_eq_nil_iff] at hd; exact hd
    have htk : buf.take s.lenLeft = buf := List.take_of_length_le hle
    rw [htk] at hnew hpkt
    refine ⟨_, [], buf, dn, .head f us (hb0 ++ buf), rfl, by simp, hne, ⟨hnew, ?_, trivial⟩, rfl⟩
    refine ⟨g1, g2, g3, g4, ?_, ?_, hpkt, g8, g9, g10⟩
    · rw [List.length_append]; omega
    · simp only [V.readLen, List.length_append]; omega
  · rw [if_neg hd]
    have hlt : s.lenLeft < buf.length := by rw [List.drop_eq_nil_iff] at hd; omega
    have hl : (hb0 ++ buf.take s.lenLeft).length = P.n := by
      rw [List.length_append, List.length_take]; omega
    have hfl : (s.readLen buf).left = f - (plain P.n us).length := g3
    obtain ⟨b, rest, hbr⟩ : ∃ b rest, buf.drop s.lenLeft = b :: rest := by
      cases hx : buf.drop s.lenLeft with
      | nil => exact absurd hx hd
      | cons b rest => exact ⟨b, rest, rfl⟩
    have hsplit : buf = buf.take s.lenLeft ++ b :: rest := by rw [← hbr, List.take_append_drop]
    -- what a fragment must have here
    have good : ∀ fs, Wf P.n all fs → ∀ t, c ++ buf ++ t = plains P.n fs →
        (s.readLen buf).pkt ≠ 0 ∧ (s.readLen buf).pkt ≤ (s.readLen buf).left - P.n ∧
        ((s.readLen buf).left - (P.n + (s.readLen buf).pkt) > 0 → P.n < (s.readLen buf).left - (P.n + (s.readLen buf).pkt)) := by
      intro fs hw t ht
      rw [hb.frames, List.append_assoc] at hw
      rw [hb.read, List.append_assoc, List.append_assoc] at ht
      obtain ⟨r, r1, r2, r3⟩ := plains_prefix hn4 hn1 dn fs _ _ hb.units hw ht
      cases r with
      | nil => have := r2.2; simp [Ph.cur] at this
      | cons ws r =>
        have e1 : (plain P.n ws).length = f := by have := r2.2; simp [Ph.cur] at this; exact this.1
        have hws : Units P.n ws := r2.1 ws (by simp)
        have e2 : plains P.n (ws :: r) = plain P.n ws ++ plains P.n r := by simp [plains]
        rw [e2] at r3
        simp only [Ph.read] at r3
        rw [List.append_assoc] at r3
        obtain ⟨zs, z1⟩ := plain_prefix hn4 hn1 us ws _ _ g1 hws (by omega) r3
        have z2 : plain P.n ws = plain P.n us ++ plain P.n zs := by rw [z1]; simp [plain]
        have hzs : Units P.n zs := fun a ha => hws a (by rw [z1]; simp [ha])
        have e1' : (plain P.n us).length + (plain P.n zs).length = f := by rw [← e1, z2, List.length_append]
        cases zs with
        | nil => rw [show plain P.n ([] : List (List UInt8)) = [] from rfl, List.length_nil] at e1'; omega
        | cons u zs =>
          have z3 : plain P.n (u :: zs) = beN P.n u.length ++ (u ++ plain P.n zs) := by simp [plain, unit]
          rw [z2, List.append_assoc] at r3
          have r4 := List.append_cancel_left r3
          rw [z3, hsplit] at r4
          simp only [List.append_assoc] at r4
          rw [← List.append_assoc] at r4
          obtain ⟨r5, _⟩ := List.append_inj r4 (by rw [hl, beN_length])
          have hu := hzs u (by simp)
          have hpk : (s.readLen buf).pkt = u.length := by rw [hpkt, r5, fold_beN' hn4 hu.2]
          have hz : (plain P.n (u :: zs)).length = P.n + u.length + (plain P.n zs).length := by rw [z3]; simp [beN_length]; omega
          refine ⟨by omega, by omega, ?_⟩
          intro hpos
          have : zs ≠ [] := by
            intro hz0
            rw [hz0, show plain P.n ([] : List (List UInt8)) = [] from rfl, List.length_nil] at hz
            rw [hz0, hz] at e1'
            omega
          have := plain_pos zs (fun a ha => hzs a (by simp [ha])) this
          omega
    by_cases h0 : (s.readLen buf).pkt = 0
    · right
      rw [if_pos h0]
      exact ⟨rfl, fun fs hw t ht => (good fs hw t ht).1 h0⟩
    rw [if_neg h0]
    by_cases h1 : (s.readLen buf).pkt > (s.readLen buf).left - P.n
    · right
      rw [if_pos h1]
      exact ⟨rfl, fun fs hw t ht => by have := (good fs hw t ht).2.1; omega⟩
    rw [if_neg h1]
    by_cases h2 : (s.readLen buf).left - (P.n + (s.readLen buf).pkt) > 0 ∧ (s.readLen buf).left - (P.n + (s.readLen buf).pkt) ≤ P.n
    · right
      rw [if_pos h2]
      exact ⟨rfl, fun fs hw t ht => by have := (good fs hw t ht).2.2 h2.1; omega⟩
    rw [if_neg h2]
    left
    have key := @nalType_at P hP v all { s.readLen buf with left := (s.readLen buf).left - (P.n + (s.readLen buf).pkt) } dn f us (hb0 ++ buf.take s.lenLeft)
      (c ++ buf.take s.lenLeft) ⟨hnew.units, hnew.frames, hnew.read, hnew.wrote, hnew.wb, hnew.aux, hnew.sizes, hnew.fin, hnew.sent⟩ g1 hl hpkt
      (by show 0 < (s.readLen buf).pkt; omega) (by show _ + _ + (s.readLen buf).pkt ≤ f; omega)
      (by show (s.readLen buf).left - (P.n + (s.readLen buf).pkt) = f - (_ + _ + (s.readLen buf).pkt); omega)
      (by show (s.readLen buf).left - (P.n + (s.readLen buf).pkt) > 0 → P.n < (s.readLen buf).left - (P.n + (s.readLen buf).pkt); omega)
      g8 g9 g10 b rest
    obtain ⟨s', dn', ph', k1, k2, k3⟩ := key
    refine ⟨s', rest.drop ((s.readLen buf).pkt - 1), buf.take s.lenLeft ++ b :: rest.take ((s.readLen buf).pkt - 1), dn', ph', ?_, ?_, by simp, ?_, k3⟩
    · rw [hbr]; exact k1
    · rw [List.append_assoc, List.cons_append, List.take_append_drop]; exact hsplit
    · rw [← List.append_assoc]; exact k2

/-- What an iteration can do before its end. -/
def V.meas (s : V) (buf : List UInt8) : Nat := 3 * (buf.length + s.frames.length) + if s.ps = .size then 0 else 1

theorem start_at {P : Par} {v : Nat} {all : List Nat} {s : V} {dn : List (List (List UInt8))} {c : List UInt8} (h : VAt P v all s dn .idle c)
    {f : Nat} {fs : List Nat} (hf : s.frames = f :: fs) :
    ∃ s', s.startFrame = .ok s' ∧ s'.left = f ∧ s'.frames = fs ∧ s'.done = false ∧ s'.ps = .size ∧ s'.lenLeft = P.n ∧ s'.pkt = 0 ∧ s'.subs = 0 ∧
      s'.ctr.At P.E (be64 (v + dn.length)) 0 ∧ s'.iv = be64 (v + dn.length + 1) ∧ s'.wb = s.wb ∧ s'.aux = s.aux ++ s.iv ++ [0, 0] ∧ s'.sizes = s.sizes ∧
      (∀ ph : Ph, ph.cur = [f] → ph.read P = [] → ph.wrote P (v + dn.length) = [] → ph.aux P (v + dn.length) = be64 (v + dn.length) ++ [0, 0] → ph ≠ .idle →
        ∀ s'', s''.frames = fs → s''.done = false → s''.wb = s'.wb → s''.aux = s'.aux → s''.sizes = s'.sizes → VB P v all s'' dn ph c) := by
  obtain ⟨hb, ⟨g1, g2, g3, g4, g5⟩, _⟩ := h
  have hd : s.done = false := by
    cases hd : s.done with
    | false => rfl
    | true => have := (hb.fin.1 hd).2.2; rw [hf] at this; simp at this
  unfold V.startFrame
  rw [hf]
  refine ⟨_, rfl, rfl, rfl, hd, g2, g3, g4, rfl, ?_, ?_, rfl, rfl, rfl, ?_⟩
  · show (Ctr.setIv s.iv).At _ _ _
    rw [g5]; exact Ctr.setIv_at _ (be64_length _)
  · show inc64 s.iv = _
    rw [g5, inc64_be64]
  · intro ph p1 p2 p3 p4 p5 s'' a1 a2 a3 a4 a5
    refine ⟨hb.units, ?_, ?_, ?_, ?_, ?_, ?_, ?_, ?_⟩
    · rw [hb.frames, p1, a1, hf]; simp [Ph.cur]
    · rw [hb.read, p2]; rfl
    · rw [a3, p3]; exact hb.wrote
    · rw [a3]; exact hb.wb
    · intro hx; rw [a4, p4]; show s.aux ++ s.iv ++ [0, 0] = _
      rw [hb.aux hx, g5]; simp [Ph.aux]
    · rw [a5]; exact hb.sizes
    · rw [a2]; simp [p5]
    · rw [a2]; simp

/-- An iteration. -/
theorem iter_at {P : Par} (hP : P.Ok) {v : Nat} {all : List Nat} {s : V} {dn : List (List (List UInt8))} {ph : Ph} {c : List UInt8}
    (h : VAt P v all s dn ph c) {buf : List UInt8} (hne : buf ≠ []) :
    (∃ s' buf' w dn' ph', s.iter P buf = .ok (s', buf') ∧ buf = w ++ buf' ∧ VAt P v all s' dn' ph' (c ++ w) ∧ s'.meas buf' < s.meas buf) ∨
    s.iter P buf = .err ∧ Bad P all (c ++ buf) := by
  have hn1 := hP.n1
  have hn4 := hP.n4
  have hlen : ∀ {w buf' : List UInt8}, buf = w ++ buf' → w ≠ [] → buf'.length < buf.length := by
    intro w buf' e hw
    have := List.length_pos_iff.2 hw
    rw [e, List.length_append]; omega
  cases ph with
  | idle =>
    have g := h.fits
    obtain ⟨g1, g2, g3, g4, g5⟩ := g
    unfold V.iter
    rw [g2]
    dsimp only
    rw [if_pos g1]
    cases hf : s.frames with
    | nil =>
      right
      refine ⟨by unfold V.startFrame; rw [hf]; rfl, ?_⟩
      intro fs hw t ht
      rw [h.base.frames, hf, List.append_nil, Ph.cur] at hw
      rw [h.base.read, Ph.read, List.append_nil, List.append_assoc] at ht
      obtain ⟨r, r1, r2, r3⟩ := plains_prefix hn4 hn1 dn fs _ _ h.base.units hw ht
      cases r with
      | nil => simp [plains] at r3; exact hne r3.1
      | cons a r => have := r2.2; simp at this
    | cons f fs =>
      obtain ⟨s1, e1, e2, e3, e4, e5, e6, e7, e8, e9, e10, e11, e12, e13, e14⟩ := start_at h hf
      rw [e1, Res.bind_ok]
      by_cases hle : s1.left ≤ P.n
      · rw [if_pos hle]
        by_cases h0 : s1.left = 0
        · rw [if_pos h0]
          left
          refine ⟨_, buf, [], dn, .zero, rfl, rfl, ⟨?_, ?_, trivial⟩, ?_⟩
          · rw [List.append_nil]
            exact e14 .zero (by simp [Ph.cur]; omega) rfl rfl rfl (by simp) _ e3 e4 rfl rfl rfl
          · exact ⟨h0, rfl, e7, e8, e9, e10⟩
          · simp only [V.meas, e3, hf, g2]; simp; omega
        · rw [if_neg h0]
          right
          refine ⟨rfl, ?_⟩
          intro ws hw t ht
          rw [h.base.frames, hf, Ph.cur, List.append_nil] at hw
          rw [h.base.read, Ph.read, List.append_nil, List.append_assoc] at ht
          obtain ⟨r, r1, r2, r3⟩ := plains_prefix hn4 hn1 dn ws _ _ h.base.units hw ht
          cases r with
          | nil => have := r2.2; simp at this
          | cons us r =>
            have e1 : (plain P.n us).length = f := by have := r2.2; simp at this; exact this.1
            have : us ≠ [] := by
              intro hx; rw [hx] at e1; simp [plain] at e1; omega
            have := plain_pos us (r2.1 us (by simp)) this
            omega
      · rw [if_neg hle]
        have hv : VAt P v all s1 dn (.head f [] []) c := by
          refine ⟨e14 _ rfl rfl rfl ?_ (by simp) _ e3 e4 rfl rfl rfl, ?_, trivial⟩
          · simp [Ph.aux]
          · refine ⟨fun a ha => by simp at ha, by simp [plain]; omega, by simp [plain, e2], e5, by simp, by simp [e6], by simp [e7], by simp [e8], ?_, e10⟩
            simpa [encSizes] using e9
        rcases sizeOf_at hP hv hne with ⟨s', buf', w, dn', ph', k1, k2, k3, k4, k5⟩ | k
        · left
          refine ⟨s', buf', w, dn', ph', k1, k2, k4, ?_⟩
          have := hlen k2 k3
          simp only [V.meas, k5, e3, hf, List.length_cons]
          split <;> omega
        · right; exact k
  | zero =>
    left
    obtain ⟨s', dn', ph', k1, k2, k3, k4⟩ := zero_at hP h buf
    have hps : s.ps = .enc := h.fits.2.1
    refine ⟨s', buf, [], dn', ph', ?_, rfl, by simpa using k2, ?_⟩
    · unfold V.iter; rw [hps]; exact k1
    · simp only [V.meas, k3, k4, hps]; simp
  | head f us hb =>
    have g := h.fits
    have hps : s.ps = .size := g.2.2.2.1
    have hl : s.left ≠ 0 := by have := g.2.1; have := g.2.2.1; omega
    unfold V.iter
    rw [hps]
    dsimp only
    rw [if_neg hl]
    rcases sizeOf_at hP h hne with ⟨s', buf', w, dn', ph', k1, k2, k3, k4, k5⟩ | k
    · left
      refine ⟨s', buf', w, dn', ph', k1, k2, k4, ?_⟩
      have := hlen k2 k3
      simp only [V.meas, k5, hps]
      split <;> simp <;> omega
    · right; exact k
  | body f us b u r =>
    left
    have hr : 0 < r := h.pos
    obtain ⟨s', dn', ph', k1, k2, k3⟩ := body_at hP h.base h.fits buf
    have hps : s.ps ≠ .size := by
      have := h.fits.2.2.2.2.2.1
      rw [this]; split <;> simp
    refine ⟨s', buf.drop r, buf.take r, dn', ph', ?_, (List.take_append_drop _ _).symm, k2, ?_⟩
    · unfold V.iter
      cases hx : s.ps with
      | size => exact absurd hx hps
      | enc => exact k1
      | copy => exact k1
    · have := List.length_pos_iff.2 hne
      simp only [V.meas, k3, List.length_drop, if_neg hps]
      split <;> omega

/-- The loop takes all of a buffer, or refuses data that no fragment has. It ends, and nothing undefined happens. -/
theorem loop_at {P : Par} (hP : P.Ok) {v : Nat} {all : List Nat} : ∀ (k : Nat) {s : V} {dn : List (List (List UInt8))} {ph : Ph} {c : List UInt8},
    VAt P v all s dn ph c → ∀ (buf : List UInt8), s.meas buf < k →
    (∃ s' dn' ph', V.loop P k s buf = .ok s' ∧ VAt P v all s' dn' ph' (c ++ buf)) ∨ V.loop P k s buf = .err ∧ Bad P all (c ++ buf)
  | k, s, dn, ph, c, h, [], _ => by
    left
    refine ⟨s, dn, ph, ?_, by simpa using h⟩
    unfold V.loop
    rfl
  | 0, _, _, _, _, _, _ :: _, hk => by omega
  | k + 1, s, dn, ph, c, h, x :: xs, hk => by
    rw [V.loop]
    case x_3 => simp
    rcases iter_at hP h (buf := x :: xs) (by simp) with ⟨s', buf', w, dn', ph', k1, k2, k3, k4⟩ | ⟨k1, k2⟩
    · rw [k1, Res.bind_ok]
      have := loop_at hP k k3 buf' (by omega)
      rw [List.append_assoc, ← k2] at this
      exact this
    · right
      rw [k1]
      exact ⟨rfl, k2⟩

theorem write_at {P : Par} (hP : P.Ok) {v : Nat} {all : List Nat} {s : V} {dn : List (List (List UInt8))} {ph : Ph} {c : List UInt8}
    (h : VAt P v all s dn ph c) (buf : List UInt8) :
    (∃ s' dn' ph', s.write P buf = .ok s' ∧ VAt P v all s' dn' ph' (c ++ buf)) ∨ s.write P buf = .err ∧ Bad P all (c ++ buf) :=
  loop_at hP _ h buf (by unfold V.meas; split <;> omega)

theorem writeAll_at {P : Par} (hP : P.Ok) {v : Nat} {all : List Nat} : ∀ (bufs : List (List UInt8)) {s : V} {dn : List (List (List UInt8))} {ph : Ph} {c : List UInt8},
    VAt P v all s dn ph c →
    (∃ s' dn' ph', s.writeAll P bufs = .ok s' ∧ VAt P v all s' dn' ph' (c ++ bufs.flatten)) ∨ s.writeAll P bufs = .err ∧ Bad P all (c ++ bufs.flatten)
  | [], s, dn, ph, c, h => .inl ⟨s, dn, ph, rfl, by simpa using h⟩
  | b :: bs, s, dn, ph, c, h => by
    rw [V.writeAll]
    rcases write_at hP h b with ⟨s', dn', ph', k1, k2⟩ | ⟨k1, k2⟩
    · rw [k1, Res.bind_ok, List.flatten_cons, ← List.append_assoc]
      exact writeAll_at hP bs k2
    · right
      rw [k1]
      refine ⟨rfl, ?_⟩
      intro fs hw t ht
      apply k2 fs hw (bs.flatten ++ t)
      rw [← ht]; simp

end Verif.Cenc
