import Verif.MtsEnc

/-! # The packets of one frame: what the calls of the encoder write -/

namespace Verif.Mts

/-- `t` is written behind `p`, and behind the headers of more packets as far as needed. -/
def lay (pid cc : Nat) (p t : List UInt8) : List (List UInt8) :=
  if p.length + t.length ≤ 188 then [p ++ t]
  else (p ++ t.take (188 - p.length)) :: lay pid (cc + 1) (packetHeader pid cc) (t.drop (188 - p.length))
termination_by (t.length, p.length)
decreasing_by
  rw [List.length_drop]
  by_cases h : p.length < 188
  · exact Prod.Lex.left _ _ (by omega)
  · rw [show t.length - (188 - p.length) = t.length by omega]
    exact Prod.Lex.right _ (by simp [packetHeader]; omega)

theorem lay_fits {pid cc : Nat} {p t : List UInt8} (h : p.length + t.length ≤ 188) : lay pid cc p t = [p ++ t] := by
  rw [lay, if_pos h]

theorem lay_over {pid cc : Nat} {p t : List UInt8} (h : ¬ p.length + t.length ≤ 188) :
    lay pid cc p t = (p ++ t.take (188 - p.length)) :: lay pid (cc + 1) (packetHeader pid cc) (t.drop (188 - p.length)) := by
  rw [lay, if_neg h]

@[simp] theorem packetHeader_length (pid cc : Nat) : (packetHeader pid cc).length = 4 := rfl

theorem lay_ne (pid cc : Nat) (p t : List UInt8) : lay pid cc p t ≠ [] := by
  rw [lay]; split <;> simp

/-- Everything but the last packet, and the last. -/
def initOf (l : List (List UInt8)) : List (List UInt8) := l.dropLast
def lastOf (l : List (List UInt8)) : List UInt8 := l.getLastD []

theorem split_last {l : List (List UInt8)} (h : l ≠ []) : l = initOf l ++ [lastOf l] := by
  rw [initOf, lastOf, List.getLastD_eq_getLast?, List.getLast?_eq_some_getLast h]
  exact (List.dropLast_concat_getLast h).symm

theorem lastOf_cons (x : List UInt8) {l : List (List UInt8)} (h : l ≠ []) : lastOf (x :: l) = lastOf l := by
  obtain ⟨y, t, rfl⟩ := List.exists_cons_of_ne_nil h
  simp [lastOf, List.getLastD_eq_getLast?]

theorem initOf_cons (x : List UInt8) {l : List (List UInt8)} (h : l ≠ []) : initOf (x :: l) = x :: initOf l := by
  obtain ⟨y, t, rfl⟩ := List.exists_cons_of_ne_nil h
  rfl

theorem initOf_length {l : List (List UInt8)} : (initOf l).length = l.length - 1 := by simp [initOf]

/-- What is written first may as well have been there before. -/
theorem lay_more (pid cc : Nat) (p a b : List UInt8) (h : p.length + a.length ≤ 188) :
    lay pid cc p (a ++ b) = lay pid cc (p ++ a) b := by
  by_cases h2 : p.length + (a ++ b).length ≤ 188
  · rw [lay_fits h2, lay_fits (by simp only [List.length_append] at h2 ⊢; omega), List.append_assoc]
  · have h3 : ¬ (p ++ a).length + b.length ≤ 188 := by simp only [List.length_append] at h2 ⊢; omega
    have e1 : 188 - p.length = a.length + (188 - (p ++ a).length) := by simp only [List.length_append]; omega
    rw [lay_over h2, lay_over h3, e1, List.take_length_add_append, List.drop_length_add_append, List.append_assoc]

theorem lay_append (pid cc : Nat) (p a b : List UInt8) (hp : p.length ≤ 188) :
    lay pid cc p (a ++ b) = initOf (lay pid cc p a) ++ lay pid (cc + ((lay pid cc p a).length - 1)) (lastOf (lay pid cc p a)) b := by
  by_cases h : p.length + a.length ≤ 188
  · rw [lay_fits h]
    show _ = [] ++ lay pid (cc + 0) (p ++ a) b
    rw [List.nil_append]
    exact lay_more pid cc p a b h
  · have h2 : ¬ p.length + (a ++ b).length ≤ 188 := by simp; omega
    have e1 : (a ++ b).take (188 - p.length) = a.take (188 - p.length) := by
      rw [List.take_append_of_le_length (by omega)]
    have e2 : (a ++ b).drop (188 - p.length) = a.drop (188 - p.length) ++ b := by
      rw [List.drop_append_of_le_length (by omega)]
    rw [lay_over h2, lay_over h, e1, e2, lay_append pid (cc + 1) (packetHeader pid cc) (a.drop (188 - p.length)) b (by simp)]
    have hne := lay_ne pid (cc + 1) (packetHeader pid cc) (a.drop (188 - p.length))
    have hlen : 0 < (lay pid (cc + 1) (packetHeader pid cc) (a.drop (188 - p.length))).length := List.length_pos_iff.mpr hne
    rw [lastOf_cons _ hne, initOf_cons _ hne, List.cons_append, List.length_cons,
      show cc + (((lay pid (cc + 1) (packetHeader pid cc) (a.drop (188 - p.length))).length + 1) - 1) =
        cc + 1 + ((lay pid (cc + 1) (packetHeader pid cc) (a.drop (188 - p.length))).length - 1) by omega]
termination_by (a.length, p.length)
decreasing_by
  rw [List.length_drop]
  by_cases h : p.length < 188
  · exact Prod.Lex.left _ _ (by omega)
  · rw [show a.length - (188 - p.length) = a.length by omega]
    exact Prod.Lex.right _ (by simp [packetHeader]; omega)

theorem lay_nil (pid cc : Nat) {p : List UInt8} (h : p.length ≤ 188) : lay pid cc p [] = [p] := by
  rw [lay_fits (by simpa using h), List.append_nil]

theorem lastOf_length (pid cc : Nat) (p t : List UInt8) (_hp : p.length ≤ 188) : (lastOf (lay pid cc p t)).length ≤ 188 := by
  by_cases h : p.length + t.length ≤ 188
  · rw [lay_fits h]; simpa [lastOf] using h
  · rw [lay_over h, lastOf_cons _ (lay_ne _ _ _ _)]
    exact lastOf_length _ _ _ _ (by simp)
termination_by (t.length, p.length)
decreasing_by
  rw [List.length_drop]
  by_cases h : p.length < 188
  · exact Prod.Lex.left _ _ (by omega)
  · rw [show t.length - (188 - p.length) = t.length by omega]
    exact Prod.Lex.right _ (by simp [packetHeader]; omega)

/-- The packets but for the first do not depend on the first. -/
theorem lay_change (pid cc : Nat) (p p' t : List UInt8) (h : p.length = p'.length) :
    ∃ x r, lay pid cc p t = (p ++ x) :: r ∧ lay pid cc p' t = (p' ++ x) :: r := by
  by_cases hf : p.length + t.length ≤ 188
  · exact ⟨t, [], lay_fits hf, lay_fits (by omega)⟩
  · exact ⟨t.take (188 - p.length), _, lay_over hf, by rw [lay_over (by omega), h]⟩

/-! ## The state in a frame -/

theorem modify_last {α : Type} (l : List α) (x : α) (f : α → α) : (l ++ [x]).modify l.length f = l ++ [f x] := by
  induction l with
  | nil => rfl
  | cons y t ih => simp [ih]

theorem modify_mid {α : Type} (l : List α) (x : α) (r : List α) (f : α → α) : (l ++ x :: r).modify l.length f = l ++ f x :: r := by
  induction l with
  | nil => rfl
  | cons y t ih => simp [ih]

/-- The stream `e` writes at the end of the queue, whose last packet is `p`. -/
structure At (o : Out) (e : Enc) (q : List (List UInt8)) (p : List UInt8) : Prop where
  packets : o.packets = q ++ [p]
  cur : e.cur = q.length
  pos : e.pos = p.length

theorem At.onPacket {o : Out} {e : Enc} {q : List (List UInt8)} {p : List UInt8} (h : At o e q p) (f : List UInt8 → List UInt8) :
    (o.onPacket e.cur f).packets = q ++ [f p] := by
  rw [Out.onPacket, h.cur, h.packets]
  exact modify_last q p f

theorem full_lay (i fuel : Nat) (o : Out) (e : Enc) (q : List (List UInt8)) (p b : List UInt8) (hf : b.length ≤ fuel)
    (ho : o.packets = q ++ [p]) (hcur : e.cur = q.length) (hp : p.length = 188) :
    ∃ o' e' r, Out.full i fuel o e b = (o', e', r) ∧
      o'.packets ++ (if r = [] then [] else [packetHeader e'.info.pid e'.cc ++ r]) = q ++ lay e.info.pid e.cc p b ∧
      e'.info = e.info ∧ e'.pesBytes = e.pesBytes ∧ e'.sizeAt = e.sizeAt ∧ e'.header = e.header ∧ r.length < 184 ∧
      e'.cc + (if r = [] then 0 else 1) = e.cc + ((lay e.info.pid e.cc p b).length - 1) ∧ o'.encs = o.encs ∧
      (r = [] → e'.cur = q.length + ((lay e.info.pid e.cc p b).length - 1) ∧ (lastOf (lay e.info.pid e.cc p b)).length = 188) ∧
      (r ≠ [] → o'.packets.length = q.length + ((lay e.info.pid e.cc p b).length - 1) ∧
        (lastOf (lay e.info.pid e.cc p b)).length = 4 + r.length) ∧
      (o.last = some i → o'.last = some i) := by
  induction fuel generalizing o e q p b with
  | zero =>
    have : b = [] := List.length_eq_zero_iff.mp (by omega)
    subst this
    refine ⟨o, e, [], rfl, ?_⟩
    rw [lay_nil _ _ (by omega)]
    simp [ho, hcur, lastOf, hp]
  | succ n ih =>
    rw [Out.full]
    by_cases h : 184 ≤ b.length
    · rw [if_pos h]
      have hp4 : (packetHeader e.info.pid e.cc ++ b.take 184).length = 188 := by simp; omega
      obtain ⟨o', e', r, h1, h2, h3, h4, h5, h6, h7, h8, h9, h10, h11, h12⟩ :=
        ih ((o.initPacket i e).1.onPacket (o.initPacket i e).2.cur (· ++ b.take 184)) (o.initPacket i e).2 (q ++ [p])
          (packetHeader e.info.pid e.cc ++ b.take 184) (b.drop 184) (by simp; omega)
          (by
            show (o.packets ++ [_]).modify o.packets.length _ = _
            rw [modify_last, ho])
          (by show o.packets.length = _; rw [ho]) hp4
      refine ⟨o', e', r, h1, ?_⟩
      have hlay : lay e.info.pid e.cc p b = p :: lay e.info.pid (e.cc + 1) (packetHeader e.info.pid e.cc ++ b.take 184) (b.drop 184) := by
        rw [lay_over (by omega), hp, show b.take (188 - 188) = [] from rfl, List.append_nil, show b.drop (188 - 188) = b from rfl]
        congr 1
        have := lay_more e.info.pid (e.cc + 1) (packetHeader e.info.pid e.cc) (b.take 184) (b.drop 184) (by simp; omega)
        rwa [List.take_append_drop] at this
      have hi1 : (o.initPacket i e).2.info = e.info := rfl
      have hi2 : (o.initPacket i e).2.cc = e.cc + 1 := rfl
      rw [hi1, hi2] at h2 h8 h10 h11
      have hne := lay_ne e.info.pid (e.cc + 1) (packetHeader e.info.pid e.cc ++ b.take 184) (b.drop 184)
      have hlen : 0 < (lay e.info.pid (e.cc + 1) (packetHeader e.info.pid e.cc ++ b.take 184) (b.drop 184)).length :=
        List.length_pos_iff.mpr hne
      rw [hlay, lastOf_cons _ hne, List.length_cons]
      refine ⟨?_, h3, h4, h5, h6, h7, by omega, h9, ?_, ?_, fun _ => h12 rfl⟩
      · rw [h2]; simp
      · intro hr; have := h10 hr; simp at this; exact ⟨by omega, this.2⟩
      · intro hr; have := h11 hr; simp at this; exact ⟨by omega, this.2⟩
    · rw [if_neg h]
      refine ⟨o, e, b, rfl, ?_⟩
      by_cases hb : b = []
      · subst hb
        rw [lay_nil _ _ (by omega)]
        simp [ho, hcur, lastOf, hp]
      · have hlay : lay e.info.pid e.cc p b = [p, packetHeader e.info.pid e.cc ++ b] := by
          have : 0 < b.length := List.length_pos_iff.mpr hb
          rw [lay_over (by omega), hp, show b.take (188 - 188) = [] from rfl, List.append_nil, show b.drop (188 - 188) = b from rfl,
            lay_fits (by simp; omega)]
        rw [hlay]
        simp [ho, hb, lastOf]
        omega

/-- What a write leaves: the stream is at the end of the queue, and `n` packets were added. -/
structure Wrote (e e' : Enc) (n : Nat) : Prop where
  info : e'.info = e.info
  sizeAt : e'.sizeAt = e.sizeAt
  header : e'.header = e.header
  cc : e'.cc = e.cc + n

theorem write_lay (i : Nat) (o : Out) (e : Enc) (q : List (List UInt8)) (p b : List UInt8) (h : At o e q p) (hp : p.length ≤ 188)
    (hb : b ≠ [] ∨ p.length < 188) (hl : o.last = some i) :
    ∃ o' e', o.write i e b = (o', e') ∧
      At o' e' (q ++ initOf (lay e.info.pid e.cc p b)) (lastOf (lay e.info.pid e.cc p b)) ∧
      Wrote e e' ((lay e.info.pid e.cc p b).length - 1) ∧ e'.pesBytes = e.pesBytes + b.length ∧ o'.encs = o.encs ∧ o'.last = some i := by
  have hne := lay_ne e.info.pid e.cc p b
  have hlen : 0 < (lay e.info.pid e.cc p b).length := List.length_pos_iff.mpr hne
  rw [Out.write]
  by_cases h188 : 188 ≤ e.pos
  · -- a new packet
    have hp' : p.length = 188 := by rw [h.pos] at h188; omega
    have hb' : b ≠ [] := by rcases hb with h | h; exact h; omega
    have hbl : 0 < b.length := List.length_pos_iff.mpr hb'
    have hlay : lay e.info.pid e.cc p b = p :: lay e.info.pid (e.cc + 1) (packetHeader e.info.pid e.cc) b := by
      rw [lay_over (by omega), hp', show b.take (188 - 188) = [] from rfl, List.append_nil, show b.drop (188 - 188) = b from rfl]
    have hne2 := lay_ne e.info.pid (e.cc + 1) (packetHeader e.info.pid e.cc) b
    have hlen2 : 0 < (lay e.info.pid (e.cc + 1) (packetHeader e.info.pid e.cc) b).length := List.length_pos_iff.mpr hne2
    rw [hlay, lastOf_cons _ hne2, initOf_cons _ hne2, List.length_cons]
    simp only [if_pos h188, Out.initPacket]
    by_cases hs : 4 + b.length < 188
    · rw [if_pos hs]
      refine ⟨_, _, rfl, ⟨?_, ?_, ?_⟩, ⟨rfl, rfl, rfl, ?_⟩, rfl, rfl, rfl⟩
      · rw [lay_fits (by simp; omega)]
        show (o.packets ++ [_]).modify o.packets.length _ = _
        rw [modify_last, h.packets]; simp [initOf, lastOf]
      · rw [lay_fits (by simp; omega)]
        show o.packets.length = _
        rw [h.packets]; simp [initOf]
      · rw [lay_fits (by simp; omega)]
        simp [lastOf]
      · rw [lay_fits (by simp; omega)]
        rfl
    · rw [if_neg hs]
      obtain ⟨o', e', r, h1, h2, h3, h4, h5, h6, h7, h8, h9, h10, h11, h12⟩ := full_lay i (b.drop (188 - 4)).length
        ((({ o with packets := o.packets ++ [packetHeader e.info.pid e.cc], last := some i } : Out)).onPacket o.packets.length
          (· ++ b.take (188 - 4)))
        ({ e with cur := o.packets.length, pos := 4, cc := e.cc + 1, lastPts := none, pesBytes := e.pesBytes + b.length
                  flushed := e.flushed + e.left, left := 184 } : Enc)
        (q ++ [p]) (packetHeader e.info.pid e.cc ++ b.take 184) (b.drop (188 - 4)) (Nat.le_refl _)
        (by
          show (o.packets ++ [_]).modify o.packets.length _ = _
          rw [modify_last, h.packets])
        (by show o.packets.length = _; rw [h.packets]) (by simp; omega)
      have hlay2 : lay e.info.pid (e.cc + 1) (packetHeader e.info.pid e.cc ++ b.take 184) (b.drop (188 - 4)) =
          lay e.info.pid (e.cc + 1) (packetHeader e.info.pid e.cc) b := by
        have := lay_more e.info.pid (e.cc + 1) (packetHeader e.info.pid e.cc) (b.take 184) (b.drop 184) (by simp; omega)
        rw [List.take_append_drop] at this
        exact this.symm
      simp only at h2 h8 h10 h11
      rw [hlay2] at h2 h8 h10 h11
      rw [h1]
      simp only
      by_cases hr : r = []
      · subst hr
        simp only [ne_eq, not_true, if_false, if_true, List.append_nil] at h2 h8 ⊢
        obtain ⟨ha, hb3⟩ := h10 rfl
        refine ⟨_, _, rfl, ⟨?_, ?_, hb3.symm⟩, ⟨h3, h5, h6, ?_⟩, h4, h9, h12 rfl⟩
        · rw [h2]
          conv => lhs; rw [split_last hne2]
          simp
        · show e'.cur = _; rw [ha]; simp [initOf_length]; omega
        · show e'.cc = _; simp at h8; omega
      · simp only [ne_eq, hr, not_false_eq_true, if_true, if_false] at h2 h8 ⊢
        obtain ⟨ha, hb3⟩ := h11 hr
        refine ⟨_, _, rfl, ⟨?_, ?_, ?_⟩, ⟨h3, h5, h6, ?_⟩, h4, h9, rfl⟩
        · show (o'.packets ++ [_]).modify o'.packets.length _ = _
          rw [modify_last, h2]
          conv => lhs; rw [split_last hne2]
          simp
        · show o'.packets.length = _; rw [ha]; simp [initOf_length]; omega
        · show 4 + r.length = _; rw [hb3]
        · show e'.cc + 1 = _; omega
  · -- the packet has room
    simp only [if_neg h188]
    by_cases hs : e.pos + b.length < 188
    · rw [if_pos hs]
      have hfit : p.length + b.length ≤ 188 := by rw [← h.pos]; omega
      refine ⟨_, _, rfl, ⟨?_, ?_, ?_⟩, ⟨rfl, rfl, rfl, ?_⟩, rfl, rfl, hl⟩
      · rw [lay_fits hfit]
        have := h.onPacket (· ++ b)
        simpa [initOf, lastOf] using this
      · rw [lay_fits hfit]
        simpa [initOf] using h.cur
      · rw [lay_fits hfit]
        simp [lastOf, h.pos]
      · rw [lay_fits hfit]
        rfl
    · rw [if_neg hs]
      have hpos := h.pos
      obtain ⟨o', e', r, h1, h2, h3, h4, h5, h6, h7, h8, h9, h10, h11, h12⟩ := full_lay i (b.drop (188 - e.pos)).length
        (o.onPacket e.cur (· ++ b.take (188 - e.pos)))
        ({ e with pesBytes := e.pesBytes + b.length, flushed := e.flushed + e.left, left := 184 } : Enc)
        q (p ++ b.take (188 - e.pos)) (b.drop (188 - e.pos)) (Nat.le_refl _) (h.onPacket _) h.cur (by simp; omega)
      have hlay2 : lay e.info.pid e.cc (p ++ b.take (188 - e.pos)) (b.drop (188 - e.pos)) = lay e.info.pid e.cc p b := by
        have := lay_more e.info.pid e.cc p (b.take (188 - e.pos)) (b.drop (188 - e.pos)) (by simp; omega)
        rw [List.take_append_drop] at this
        exact this.symm
      simp only at h2 h8 h10 h11
      rw [hlay2] at h2 h8 h10 h11
      rw [h1]
      simp only
      by_cases hr : r = []
      · subst hr
        simp only [ne_eq, not_true, if_false, if_true, List.append_nil] at h2 h8 ⊢
        obtain ⟨ha, hb3⟩ := h10 rfl
        refine ⟨_, _, rfl, ⟨?_, ?_, hb3.symm⟩, ⟨h3, h5, h6, ?_⟩, h4, h9, h12 hl⟩
        · rw [h2]
          conv => lhs; rw [split_last hne]
          simp
        · show e'.cur = _; rw [ha]; simp [initOf_length]
        · show e'.cc = _; simp at h8; omega
      · simp only [ne_eq, hr, not_false_eq_true, if_true, if_false, Out.initPacket] at h2 h8 ⊢
        obtain ⟨ha, hb3⟩ := h11 hr
        refine ⟨_, _, rfl, ⟨?_, ?_, ?_⟩, ⟨h3, h5, h6, ?_⟩, h4, h9, rfl⟩
        · show (o'.packets ++ [_]).modify o'.packets.length _ = _
          rw [modify_last, h2]
          conv => lhs; rw [split_last hne]
          simp
        · show o'.packets.length = _; rw [ha]; simp [initOf_length]
        · show 4 + r.length = _; rw [hb3]
        · show e'.cc + 1 = _; omega

end Verif.Mts
