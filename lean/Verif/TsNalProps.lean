import Verif.TsNal
import Verif.TsNalSpec

/-!
# The NAL units of a PES packet do not depend on its buffers
-/

namespace Verif.TsKmp

open NalSpec (cut)

theorem takeN_flat (p : Chain) (n : Nat) (hp : p ≠ []) (hn : n ≤ p.flatten.length) : takeN p n = .ok (p.flatten.take n) := by
  induction p generalizing n with
  | nil => exact absurd rfl hp
  | cons b bs ih =>
    rw [takeN]
    by_cases h : n ≤ b.length
    · rw [if_pos h, List.flatten_cons, List.take_append_of_le_length h]
    · rw [if_neg h]
      have h1 : bs ≠ [] := by
        intro h1
        subst h1
        simp at hn
        omega
      rw [List.flatten_cons, List.length_append] at hn
      rw [ih (n - b.length) h1 (by omega), Res.map_ok, List.flatten_cons, List.take_append, List.take_of_length_le (l := b) (by omega)]

/-- What is done with the bytes of a NAL unit. -/
def keepPs (c : Codec) (t : Track) (n : List UInt8) : Res Track :=
  match c.psId (n.take 128) with
  | none => .err
  | some id =>
    match t.saved.find? (fun x => x.1 = id) with
    | some x => if n = x.2 then .ok t else .ok { t with saved := replace id n t.saved, sent := false }
    | none =>
      if t.saved.length ≥ maxSaved then .err
      else .ok { t with saved := t.saved ++ [(id, n)], types := c.typeOf (n.headD 0).toNat :: t.types, sent := false }

/-- The type of a NAL unit. -/
def Codec.type (c : Codec) (n : List UInt8) : Nat := c.typeOf (n.headD 0).toNat

def seeSei (c : Codec) (t : Track) (n : List UInt8) : Track :=
  if c.type n ∈ c.sei ∧ t.tries > 0 then if c.cea n then { t with cea := true, tries := 0 } else { t with tries := t.tries - 1 } else t

def handle (c : Codec) (t : Track) (n : List UInt8) : Res Track :=
  if c.type n ∈ c.save then keepPs c (seeSei c t n) n else .ok (seeSei c t n)

def handleAll (c : Codec) : Track → List (List UInt8) → Res Track
  | t, [] => .ok t
  | t, n :: ns => handle c t n >>= fun t => handleAll c t ns

/-- The position and the size of a NAL unit are those of the bytes `n`. -/
structure Is (c : Codec) (u : Nalu) (n : List UInt8) : Prop where
  pos : u.pos ≠ []
  bytes : u.pos.flatten.take u.size = n
  size : u.size = n.length
  type : u.type = c.type n

/-- `Is` for lists. -/
def AllIs (c : Codec) : List Nalu → List (List UInt8) → Prop
  | [], [] => True
  | u :: us, n :: ns => Is c u n ∧ AllIs c us ns
  | _, _ => False

theorem allIs_cons {c : Codec} {u : Nalu} {us : List Nalu} {n : List UInt8} {ns : List (List UInt8)} :
    AllIs c (u :: us) (n :: ns) ↔ Is c u n ∧ AllIs c us ns := Iff.rfl

theorem takeN_is {c : Codec} {u : Nalu} {n : List UInt8} (h : Is c u n) : takeN u.pos u.size = .ok n := by
  have hle : u.size ≤ u.pos.flatten.length := by
    have h1 := h.bytes
    have h2 := h.size
    have h3 := congrArg List.length h1
    rw [List.length_take] at h3
    omega
  rw [takeN_flat _ _ h.pos hle, h.bytes]

theorem takeN_is_128 {c : Codec} {u : Nalu} {n : List UInt8} (h : Is c u n) : takeN u.pos (min u.size 128) = .ok (n.take 128) := by
  have hle : u.size ≤ u.pos.flatten.length := by
    have h3 := congrArg List.length h.bytes
    have h2 := h.size
    rw [List.length_take] at h3
    omega
  rw [takeN_flat _ _ h.pos (by omega), ← h.bytes, List.take_take, Nat.min_comm]

theorem handle_is {c : Codec} {t : Track} {u : Nalu} {n : List UInt8} (h : Is c u n) : handleNalu c t u = handle c t n := by
  have h1 : detectCea c t u = .ok (seeSei c t n) := by
    rw [detectCea, takeN_is h, h.type, seeSei]
    by_cases h1 : c.type n ∈ c.sei ∧ t.tries > 0
    · rw [if_pos h1, if_pos h1, Res.bind_ok]
      split <;> rfl
    · rw [if_neg h1, if_neg h1]
  rw [handleNalu, h1, Res.bind_ok, h.type, handle]
  by_cases h2 : c.type n ∈ c.save
  · rw [if_pos h2, if_pos h2, saveNalu, keepPs, takeN_is_128 h, Res.bind_ok]
    cases c.psId (n.take 128) with
    | none => rfl
    | some id =>
      simp only
      cases (seeSei c t n).saved.find? (fun x => x.1 = id) with
      | none =>
        simp only [takeN_is h, Res.bind_ok, h.type]
        rfl
      | some x => simp only [takeN_is h, Res.bind_ok]
  · rw [if_neg h2, if_neg h2]

theorem handle_no_ub (c : Codec) (t : Track) (n : List UInt8) : handle c t n ≠ .ub := by
  unfold handle keepPs
  intro h
  split at h
  · split at h
    · cases h
    · split at h
      · split at h <;> cases h
      · split at h <;> cases h
  · cases h

theorem handleAll_no_ub (c : Codec) (t : Track) (ns : List (List UInt8)) : handleAll c t ns ≠ .ub := by
  induction ns generalizing t with
  | nil => intro h; cases h
  | cons n ns ih =>
    intro h
    rw [handleAll] at h
    cases h1 : handle c t n with
    | ok t' => rw [h1] at h; exact ih t' h
    | err => rw [h1] at h; cases h
    | ub => exact handle_no_ub c t n h1

/-- What a scan comes to that started with the NAL units `done` when there were `ns` after them. -/
def Scanned (c : Codec) (t : Track) (done : List Nalu) (ns : List (List UInt8)) (r : Res Scan) : Prop :=
  (handleAll c t ns = .err ∧ r = .err) ∨
  (∃ t', handleAll c t ns = .ok t' ∧ maxNals < done.length + ns.length ∧ r = .err) ∨
  (∃ t' s us, handleAll c t ns = .ok t' ∧ done.length + ns.length ≤ maxNals ∧ r = .ok s ∧ s.tr = t' ∧ s.done = done ++ us ∧ AllIs c us ns)

/-- The state of a scan, at the offset `off` with the bytes `r` after it. -/
structure At (c : Codec) (off : Nat) (r : List UInt8) (cur : Option (List UInt8)) (s : Scan) : Prop where
  zeros : s.zeros ≤ off
  count : s.done.length ≤ maxNals
  cur : match s.cur, cur with
    | none, none => True
    | some (start, pos, type), some acc => pos ≠ [] ∧ pos.flatten = acc ++ r ∧ start + acc.length = off ∧ acc ++ r ≠ [] ∧
        type = c.typeOf ((acc ++ r).headD 0).toNat ∧ s.zeros ≤ acc.length ∧ acc.drop (acc.length - s.zeros) = List.replicate s.zeros 0 ∧
        s.done.length < maxNals
    | _, _ => False

/-- A NAL unit ends. -/
theorem close_is {c : Codec} {off : Nat} {r : List UInt8} {cur : Option (List UInt8)} {s : Scan} (h : At c off r cur s) (k : Nat)
    (hk : (k = s.zeros ∧ 2 ≤ k) ∨ (k = 0 ∧ r = [])) :
    (cur = none ∧ close c s (off - k) = .ok s) ∨
    (∃ acc, cur = some acc ∧ handle c s.tr (acc.take (acc.length - k)) = .err ∧ close c s (off - k) = .err) ∨
    (∃ acc t u, cur = some acc ∧ handle c s.tr (acc.take (acc.length - k)) = .ok t ∧
      close c s (off - k) = .ok { s with tr := t, cur := none, done := s.done ++ [u] } ∧ Is c u (acc.take (acc.length - k)) ∧
      s.done.length < maxNals) := by
  have hcur := h.cur
  cases hc : cur with
  | none =>
    refine .inl ⟨rfl, ?_⟩
    cases hs : s.cur with
    | none => rw [close, hs]
    | some x => rw [hs, hc] at hcur; exact hcur.elim
  | some acc =>
    refine .inr ?_
    cases hs : s.cur with
    | none => rw [hs, hc] at hcur; exact hcur.elim
    | some x =>
      obtain ⟨start, pos, type⟩ := x
      rw [hs, hc] at hcur
      simp only at hcur
      obtain ⟨h1, h2, h3, h4, h5, h6, h7, h8⟩ := hcur
      have hkl : k ≤ acc.length := by
        rcases hk with h | h <;> omega
      have hu : Is c { pos := pos, size := off - k - start, type := type } (acc.take (acc.length - k)) := by
        have hsz : off - k - start = acc.length - k := by omega
        refine ⟨h1, ?_, ?_, ?_⟩
        · show List.take (off - k - start) pos.flatten = _
          rw [hsz, h2, List.take_append_of_le_length (by omega)]
        · show off - k - start = _
          rw [hsz, List.length_take]
          omega
        · show type = _
          rw [h5, Codec.type]
          congr 2
          cases acc with
          | nil =>
            rcases hk with hk | hk
            · simp only [List.length_nil] at h6
              omega
            · rw [hk.2] at h4
              exact absurd rfl h4
          | cons x xs =>
            rw [List.cons_append, List.headD_cons]
            by_cases hz : k = xs.length + 1
            · subst hz
              have hz2 : s.zeros = xs.length + 1 := by
                rcases hk with h | h
                · exact h.1.symm
                · omega
              rw [hz2] at h7
              simp only [List.length_cons, Nat.sub_self, List.drop_zero, List.replicate_succ, List.cons.injEq] at h7
              rw [List.length_cons, Nat.sub_self, List.take_zero, List.headD_nil]
              exact h7.1
            · simp only [List.length_cons] at hkl ⊢
              rw [show xs.length + 1 - k = (xs.length - k) + 1 by omega, List.take_succ_cons, List.headD_cons]
      have hcl : close c s (off - k) = handleNalu c s.tr { pos := pos, size := off - k - start, type := type } >>= fun t =>
          .ok { s with tr := t, cur := none, done := s.done ++ [{ pos := pos, size := off - k - start, type := type }] } := by
        rw [close, hs]
        simp only
        rw [if_neg (by omega)]
      rw [handle_is hu] at hcl
      cases hh : handle c s.tr (acc.take (acc.length - k)) with
      | ub => exact absurd hh (handle_no_ub _ _ _)
      | err => exact .inl ⟨acc, rfl, hh, by rw [hcl, hh]; rfl⟩
      | ok t => exact .inr ⟨acc, t, _, rfl, hh, by rw [hcl, hh]; rfl, hu, h8⟩

theorem cut_some (z : Nat) (acc r : List UInt8) : cut z (some acc) r ≠ [] := by
  induction r generalizing z acc with
  | nil => simp [cut]
  | cons b bs ih =>
    rw [cut]
    split
    · exact ih _ _
    · split
      · exact ih _ _
      · simp

theorem scanned_cons {c : Codec} {t t' : Track} {done : List Nalu} {u : Nalu} {n : List UInt8} {ns : List (List UInt8)} {r : Res Scan}
    (hh : handle c t n = .ok t') (hu : Is c u n) (h : Scanned c t' (done ++ [u]) ns r) : Scanned c t done (n :: ns) r := by
  have hall : handleAll c t (n :: ns) = handleAll c t' ns := by rw [handleAll, hh]; rfl
  have hlen : (done ++ [u]).length + ns.length = done.length + (n :: ns).length := by simp; omega
  rw [Scanned, hlen] at h
  rw [Scanned, hall]
  rcases h with h | h | ⟨t2, s, us, h1, h2, h3, h4, h5, h6⟩
  · exact .inl h
  · exact .inr (.inl h)
  · exact .inr (.inr ⟨t2, s, u :: us, h1, h2, h3, h4, by rw [h5]; simp, allIs_cons.mpr ⟨hu, h6⟩⟩)

/-- One byte that belongs to a NAL unit or to nothing. -/
theorem at_step {c : Codec} {off : Nat} {b : UInt8} {r : List UInt8} {cur : Option (List UInt8)} {s : Scan} (h : At c off (b :: r) cur s)
    (z : Nat) (hz : (z = s.zeros + 1 ∧ b = 0) ∨ z = 0) : At c (off + 1) r (cur.map (· ++ [b])) { s with zeros := z } := by
  have h0 := h.zeros
  have hcur := h.cur
  refine ⟨show z ≤ off + 1 by omega, h.count, ?_⟩
  cases hs : s.cur with
  | none =>
    cases hc : cur with
    | none => trivial
    | some acc => rw [hs, hc] at hcur; exact hcur.elim
  | some x =>
    obtain ⟨start, pos, type⟩ := x
    cases hc : cur with
    | none => rw [hs, hc] at hcur; exact hcur.elim
    | some acc =>
      rw [hs, hc] at hcur
      simp only at hcur
      obtain ⟨h1, h2, h3, h4, h5, h6, h7, h8⟩ := hcur
      simp only [Option.map_some]
      have happ : acc ++ [b] ++ r = acc ++ b :: r := by simp
      rw [happ]
      refine ⟨h1, h2, by simp; omega, h4, h5, by simp; omega, ?_, h8⟩
      rcases hz with ⟨hz, hb⟩ | hz
      · subst hz hb
        rw [List.length_append, List.length_singleton, show acc.length + 1 - (s.zeros + 1) = acc.length - s.zeros by omega,
          List.drop_append_of_le_length (by omega), h7, List.replicate_succ']
      · subst hz
        simp

theorem byte_step {c : Codec} {next : Chain} (hne : ∀ b ∈ next, b ≠ []) {bs : List UInt8}
    (ih : ∀ off s cur, At c off (bs ++ next.flatten) cur s →
      Scanned c s.tr s.done (cut s.zeros cur (bs ++ next.flatten)) (scanBuf c next bs off s >>= fun s => scan c next (off + bs.length) s))
    (b : UInt8) (off : Nat) (s : Scan) (cur : Option (List UInt8)) (h : At c off (b :: bs ++ next.flatten) cur s) :
    Scanned c s.tr s.done (cut s.zeros cur (b :: bs ++ next.flatten))
      (scanBuf c next (b :: bs) off s >>= fun s => scan c next (off + (b :: bs).length) s) := by
  rw [List.cons_append] at h ⊢
  rw [List.length_cons, show off + (bs.length + 1) = off + 1 + bs.length by omega, cut, scanBuf]
  by_cases hb : b = 0
  · rw [if_pos hb, if_pos hb]
    exact ih (off + 1) _ _ (at_step h _ (.inl ⟨rfl, hb⟩))
  · rw [if_neg hb, if_neg hb]
    by_cases hc : s.zeros < 2 ∨ b ≠ 1
    · rw [if_pos hc, if_pos hc]
      exact ih (off + 1) _ _ (at_step h 0 (.inr rfl))
    · rw [if_neg hc, if_neg hc]
      have h2 : 2 ≤ s.zeros := by
        by_cases h2 : s.zeros < 2
        · exact absurd (.inl h2) hc
        · omega
      rw [if_neg (show ¬ off < s.zeros by have := h.zeros; omega)]
      have hempty : bs ++ next.flatten = [] ↔ bs = [] ∧ next = [] := by
        rw [List.append_eq_nil_iff]
        refine and_congr_right fun _ => ⟨fun hf => ?_, fun hf => by rw [hf]; rfl⟩
        cases next with
        | nil => rfl
        | cons x xs =>
          rw [List.flatten_cons, List.append_eq_nil_iff] at hf
          exact absurd hf.1 (hne x (List.mem_cons_self ..))
      have hstart : ∀ s : Scan, s.cur = none → s.zeros ≤ off → s.done.length ≤ maxNals →
          Scanned c s.tr s.done (if bs ++ next.flatten = [] then [] else cut 0 (some []) (bs ++ next.flatten))
            ((startNalu c bs next (off + 1) s >>= fun s => scanBuf c next bs (off + 1) s) >>= fun s => scan c next (off + 1 + bs.length) s) := by
        intro s hcur _ hcount
        by_cases he : bs = [] ∧ next = []
        · rw [if_pos (hempty.mpr he), startNalu, if_pos he, he.1, he.2]
          simp only [Res.bind_ok, scanBuf, scan, close, hcur]
          exact .inr (.inr ⟨_, _, [], rfl, by simpa using hcount, rfl, rfl, by simp, trivial⟩)
        · rw [if_neg (fun h => he (hempty.mp h)), startNalu, if_neg he]
          by_cases hl : s.done.length ≥ maxNals
          · rw [if_pos hl]
            have hns : 0 < (cut 0 (some []) (bs ++ next.flatten)).length := List.length_pos_iff.mpr (cut_some _ _ _)
            cases hh : handleAll c s.tr (cut 0 (some []) (bs ++ next.flatten)) with
            | ub => exact absurd hh (handleAll_no_ub _ _ _)
            | err => exact .inl ⟨hh, rfl⟩
            | ok t => exact .inr (.inl ⟨t, hh, by omega, rfl⟩)
          · rw [if_neg hl]
            have hpos : ∃ x xs rest, (if bs ≠ [] then bs :: next else next) = (x :: xs) :: rest ∧
                (if bs ≠ [] then bs :: next else next).flatten = bs ++ next.flatten := by
              cases hbs : bs with
              | cons x xs => exact ⟨x, xs, next, by simp, by simp⟩
              | nil =>
                cases hn : next with
                | nil => exact absurd ⟨hbs, hn⟩ he
                | cons y ys =>
                  cases hy : y with
                  | nil => exact absurd hy (hne y (by rw [hn]; exact List.mem_cons_self ..))
                  | cons x xs => exact ⟨x, xs, ys, by simp, by simp⟩
            obtain ⟨x, xs, rest, hp, hpf⟩ := hpos
            simp only [hp]
            rw [hp] at hpf
            rw [Res.bind_ok]
            refine ih (off + 1) { s with zeros := 0, cur := some (off + 1, (x :: xs) :: rest, c.typeOf x.toNat) } (some []) ⟨Nat.zero_le _, hcount, ?_⟩
            refine ⟨by simp, by rw [hpf]; rfl, rfl, ?_, ?_, Nat.zero_le _, rfl, by show s.done.length < maxNals; omega⟩
            · rw [List.nil_append, ← hpf]; simp
            · rw [List.nil_append, ← hpf]; simp
      have hcl := close_is h s.zeros (.inl ⟨rfl, h2⟩)
      rcases hcl with ⟨h3, h4⟩ | ⟨acc, h3, h4, h5⟩ | ⟨acc, t, u, h3, h4, h5, h6, h7⟩
      · rw [h4, h3]
        have hsc : s.cur = none := by
          have := h.cur
          rw [h3] at this
          cases hs : s.cur with
          | none => rfl
          | some x => rw [hs] at this; exact this.elim
        exact hstart s hsc h.zeros h.count
      · rw [h5, h3]
        exact .inl ⟨by simp [handleAll, h4], rfl⟩
      · rw [h5, h3]
        simp only [Res.bind_ok, Option.map_some, Option.toList_some, List.singleton_append]
        exact scanned_cons h4 h6 (hstart { s with tr := t, cur := none, done := s.done ++ [u] } rfl h.zeros (by simp; omega))

theorem scan_cut (c : Codec) (next : Chain) (hne : ∀ b ∈ next, b ≠ []) (bs : List UInt8) (off : Nat) (s : Scan) (cur : Option (List UInt8))
    (h : At c off (bs ++ next.flatten) cur s) :
    Scanned c s.tr s.done (cut s.zeros cur (bs ++ next.flatten)) (scanBuf c next bs off s >>= fun s => scan c next (off + bs.length) s) := by
  induction next generalizing bs off s cur with
  | nil =>
    induction bs generalizing off s cur with
    | nil =>
      simp only [scanBuf, Res.bind_ok, List.length_nil, Nat.add_zero, scan, List.flatten_nil, List.append_nil, cut] at h ⊢
      have hc := close_is h 0 (.inr ⟨rfl, rfl⟩)
      rw [Nat.sub_zero] at hc
      rcases hc with ⟨h1, h2⟩ | ⟨acc, h1, h2, h3⟩ | ⟨acc, t, u, h1, h2, h3, h4, h5⟩
      · rw [h1, h2]
        exact .inr (.inr ⟨_, _, [], rfl, by simpa using h.count, rfl, rfl, by simp, trivial⟩)
      · rw [h1, h3]
        rw [Nat.sub_zero, List.take_length] at h2
        exact .inl ⟨by simp [handleAll, h2], rfl⟩
      · rw [h1, h3]
        rw [Nat.sub_zero, List.take_length] at h2 h4
        exact .inr (.inr ⟨t, _, [u], by simp [handleAll, h2], by simp; omega, rfl, rfl, rfl, h4, trivial⟩)
    | cons b bs ih => exact byte_step hne (fun off s cur h => ih off s cur h) b off s cur h
  | cons b0 next ihn =>
    induction bs generalizing off s cur with
    | nil =>
      rw [scanBuf, Res.bind_ok, List.length_nil, Nat.add_zero, scan]
      rw [List.nil_append, List.flatten_cons] at h ⊢
      exact ihn (fun b hb => hne b (List.mem_cons_of_mem _ hb)) b0 off s cur h
    | cons b bs ih => exact byte_step hne (fun off s cur h => ih off s cur h) b off s cur h

/-- The NAL units of a PES packet. -/
theorem nalus_cut (c : Codec) (t : Track) (chain : Chain) (hne : ∀ b ∈ chain, b ≠ []) :
    (handleAll c t (cut 0 none chain.flatten) = .err ∧ nalus c t chain = .err) ∨
    (∃ t', handleAll c t (cut 0 none chain.flatten) = .ok t' ∧ maxNals < (cut 0 none chain.flatten).length ∧ nalus c t chain = .err) ∨
    (∃ t' us, handleAll c t (cut 0 none chain.flatten) = .ok t' ∧ (cut 0 none chain.flatten).length ≤ maxNals ∧ nalus c t chain = .ok (t', us) ∧
      AllIs c us (cut 0 none chain.flatten)) := by
  have h := scan_cut c chain hne [] 0 { tr := t } none ⟨Nat.le_refl _, Nat.zero_le _, trivial⟩
  simp only [scanBuf, Res.bind_ok, List.nil_append, List.length_nil, Nat.add_zero] at h
  rw [nalus]
  rcases h with ⟨h1, h2⟩ | ⟨t', h1, h2, h3⟩ | ⟨t', s, us, h1, h2, h3, h4, h5, h6⟩
  · exact .inl ⟨h1, by rw [h2]; rfl⟩
  · exact .inr (.inl ⟨t', h1, by simpa using h2, by rw [h3]; rfl⟩)
  · refine .inr (.inr ⟨t', us, h1, by simpa using h2, ?_, h6⟩)
    rw [h3, Res.bind_ok, h4, h5]
    rfl

end Verif.TsKmp
