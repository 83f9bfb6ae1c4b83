import Verif.Ts

/-!
# MPEG-TS: no undefined behaviour, and where the buffers are
-/

namespace Verif.Ts

/-! ## Reading bytes -/

theorem rd_zero (br : Br) : rd br 0 = some ([], br) := by cases br <;> simp [rd]

/-- Reading depends only on the bytes. -/
theorem rd_spec (br : Br) (n : Nat) :
    (n ≤ br.flatten.length → ∃ r, rd br n = some (br.flatten.take n, r) ∧ r.flatten = br.flatten.drop n) ∧
    (br.flatten.length < n → rd br n = none) := by
  induction br generalizing n with
  | nil => cases n <;> simp [rd]
  | cons c cs ih =>
    cases n with
    | zero => simp [rd]
    | succ n =>
      simp only [rd, List.flatten_cons, List.length_append]
      split
      · rename_i hlt
        refine ⟨fun _ => ⟨c.drop (n + 1) :: cs, ?_, ?_⟩, fun h => by omega⟩
        · rw [List.take_append_of_le_length (by omega)]
        · rw [List.flatten_cons, List.drop_append_of_le_length (by omega)]
      · rename_i hge
        have hge : c.length ≤ n + 1 := by omega
        refine ⟨fun h => ?_, fun h => ?_⟩
        · obtain ⟨r, hr, hf⟩ := (ih (n + 1 - c.length)).1 (by omega)
          refine ⟨r, by simp [hr, List.take_append, List.take_of_length_le hge], ?_⟩
          rw [hf, List.drop_append, List.drop_of_length_le hge, List.nil_append]
        · simp [(ih (n + 1 - c.length)).2 (by omega)]

theorem rd_some {br : Br} {n : Nat} {bs : List UInt8} {r : Br} (h : rd br n = some (bs, r)) :
    n ≤ br.flatten.length ∧ bs = br.flatten.take n ∧ r.flatten = br.flatten.drop n := by
  by_cases hn : n ≤ br.flatten.length
  · obtain ⟨r', hr, hf⟩ := (rd_spec br n).1 hn
    rw [hr] at h
    cases h
    exact ⟨hn, rfl, hf⟩
  · rw [(rd_spec br n).2 (by omega)] at h
    cases h

theorem rd_ok {br : Br} {n : Nat} (hn : n ≤ br.flatten.length) :
    ∃ r, rd br n = some (br.flatten.take n, r) ∧ r.flatten = br.flatten.drop n := (rd_spec br n).1 hn

/-- One byte is read. -/
theorem rd8_cons {br : Br} {a : UInt8} {t : List UInt8} (h : br.flatten = a :: t) :
    ∃ r, rd8 br = some (a.toNat, r) ∧ r.flatten = t := by
  obtain ⟨r, hr, hf⟩ := rd_ok (br := br) (n := 1) (by rw [h]; simp)
  rw [h] at hr hf
  exact ⟨r, by simp [rd8, hr], by simpa using hf⟩

/-- Two bytes are read. -/
theorem rd16_cons {br : Br} {a b : UInt8} {t : List UInt8} (h : br.flatten = a :: b :: t) :
    ∃ r, rd16 br = some (a.toNat * 256 + b.toNat, r) ∧ r.flatten = t := by
  obtain ⟨r, hr, hf⟩ := rd_ok (br := br) (n := 2) (by rw [h]; simp)
  rw [h] at hr hf
  exact ⟨r, by simp [rd16, hr], by simpa using hf⟩

theorem rd8_some {br : Br} {v : Nat} {r : Br} (h : rd8 br = some (v, r)) :
    ∃ a, br.flatten = a :: r.flatten ∧ v = a.toNat := by
  match hf : br.flatten with
  | [] =>
    have := (rd_spec br 1).2 (by rw [hf]; simp)
    simp [rd8, this] at h
  | a :: t =>
    obtain ⟨r', hr, hf'⟩ := rd8_cons hf
    rw [hr] at h
    cases h
    exact ⟨a, by rw [hf'], rfl⟩

theorem rd16_some {br : Br} {v : Nat} {r : Br} (h : rd16 br = some (v, r)) :
    ∃ a b, br.flatten = a :: b :: r.flatten ∧ v = a.toNat * 256 + b.toNat := by
  match hf : br.flatten with
  | [] =>
    have := (rd_spec br 2).2 (by rw [hf]; simp)
    simp [rd16, this] at h
  | [a] =>
    have := (rd_spec br 2).2 (by rw [hf]; simp)
    simp [rd16, this] at h
  | a :: b :: t =>
    obtain ⟨r', hr, hf'⟩ := rd16_cons hf
    rw [hr] at h
    cases h
    exact ⟨a, b, by rw [hf'], rfl⟩

theorem rd16_ok {br : Br} (h : 2 ≤ br.flatten.length) :
    ∃ v r, rd16 br = some (v, r) ∧ r.flatten.length + 2 = br.flatten.length := by
  match hf : br.flatten with
  | [] => simp [hf] at h
  | [a] => simp [hf] at h
  | a :: b :: t =>
    obtain ⟨r, hr, hf'⟩ := rd16_cons hf
    exact ⟨_, r, hr, by simp [hf']⟩

theorem rd8_ok {br : Br} (h : 1 ≤ br.flatten.length) :
    ∃ v r, rd8 br = some (v, r) ∧ r.flatten.length + 1 = br.flatten.length := by
  match hf : br.flatten with
  | [] => simp [hf] at h
  | a :: t =>
    obtain ⟨r, hr, hf'⟩ := rd8_cons hf
    exact ⟨_, r, hr, by simp [hf']⟩

theorem left_eq (br : Br) : left br = br.flatten.length := by simp [left, List.length_flatten]

/-! ## The tables are read safely -/

theorem section_len {m : Nat} {br r : Br} {len : Nat} (h : section_ m br = .ok (len, r)) :
    m ≤ len ∧ len ≤ 0x3fd ∧ len ≤ r.flatten.length := by
  unfold section_ at h
  split at h
  · cases h
  split at h
  · cases h
  split at h
  · cases h
  simp only at h
  split at h
  · cases h
  split at h
  · cases h
  split at h
  · cases h
  rename_i hx
  simp only [Got.ok.injEq, Prod.mk.injEq] at h
  obtain ⟨rfl, rfl⟩ := h
  have := (rd_some hx).1
  omega

theorem patProgs_ok (n : Nat) (br : Br) (h : 4 * n ≤ br.flatten.length) : ∃ ps, patProgs n br = .ok ps := by
  induction n generalizing br with
  | zero => exact ⟨_, rfl⟩
  | succ n ih =>
    obtain ⟨v, r, hr, hl⟩ := rd16_ok (br := br) (by omega)
    obtain ⟨v', r', hr', hl'⟩ := rd16_ok (br := r) (by omega)
    obtain ⟨ps, hps⟩ := ih r' (by omega)
    simp [patProgs, hr, hr', hps]

theorem parsePat_ok (br : Br) : ∃ g, parsePat br = .ok g := by
  unfold parsePat
  split
  · exact ⟨_, rfl⟩
  · exact ⟨_, rfl⟩
  · rename_i len r hs
    obtain ⟨h1, h2, h3⟩ := section_len hs
    obtain ⟨r', hr, hf⟩ := rd_ok (br := r) (n := 5) (by omega)
    have hl : r'.flatten.length = r.flatten.length - 5 := by rw [hf]; simp
    obtain ⟨ps, hps⟩ := patProgs_ok ((len - 9) / 4) r' (by omega)
    simp [hr, hps]

/-- The streams are the same for any cut of the bytes. -/
theorem pmtStreams_cut (k : Nat) (u w : Br) (hw : u.flatten = w.flatten) (es : List (Nat × Nat × List UInt8))
    (h : pmtStreams k u = .ok es) : pmtStreams k w = .ok es := by
  revert u w hw es h
  induction k with
  | zero => intro u w _ es h; exact h
  | succ k ihk =>
    intro u w hw es h
    unfold pmtStreams at h ⊢
    cases hu1 : rd8 u with
    | none => rw [hu1] at h; simp at h
    | some v1 =>
      obtain ⟨v1, u1⟩ := v1
      obtain ⟨a1, ea1, rfl⟩ := rd8_some hu1
      obtain ⟨w1, hw1, fw1⟩ := rd8_cons (hw ▸ ea1)
      rw [hu1] at h
      rw [hw1]
      simp only at h ⊢
      cases hu2 : rd16 u1 with
      | none => rw [hu2] at h; simp at h
      | some v2 =>
        obtain ⟨v2, u2⟩ := v2
        obtain ⟨a2, b2, ea2, rfl⟩ := rd16_some hu2
        obtain ⟨w2, hw2, fw2⟩ := rd16_cons (fw1.trans ea2)
        rw [hu2] at h
        rw [hw2]
        simp only at h ⊢
        cases hu3 : rd16 u2 with
        | none => rw [hu3] at h; simp at h
        | some v3 =>
          obtain ⟨v3, u3⟩ := v3
          obtain ⟨a3, b3, ea3, rfl⟩ := rd16_some hu3
          obtain ⟨w3, hw3, fw3⟩ := rd16_cons (fw2.trans ea3)
          rw [hu3] at h
          rw [hw3]
          simp only at h ⊢
          cases hu4 : rd u3 ((a3.toNat * 256 + b3.toNat) % 4096) with
          | none => rw [hu4] at h; simp at h
          | some v4 =>
            obtain ⟨v4, u4⟩ := v4
            obtain ⟨l4, rfl, fu4⟩ := rd_some hu4
            obtain ⟨w4, hw4, fw4⟩ := rd_ok (br := w3) (n := (a3.toNat * 256 + b3.toNat) % 4096) (by rw [fw3]; exact l4)
            rw [hu4] at h
            rw [hw4]
            simp only at h ⊢
            cases hu5 : pmtStreams k u4 with
            | err => rw [hu5] at h; simp at h
            | ub => rw [hu5] at h; simp at h
            | ok es5 =>
              rw [hu5] at h
              rw [ihk u4 w4 (by rw [fu4, fw4, fw3]) es5 hu5, fw3]
              exact h

theorem pmtCount_ok (fuel len : Nat) (br : Br) (h : len ≤ fuel) :
    ∃ n, pmtCount fuel len br = .ok n ∧ ∀ m, n = some m → ∃ es, pmtStreams m br = .ok es := by
  induction fuel generalizing len br with
  | zero =>
    have : len = 0 := by omega
    subst this
    refine ⟨some 0, rfl, fun m hm => ?_⟩
    cases hm
    exact ⟨_, rfl⟩
  | succ fuel ih =>
    cases len with
    | zero =>
      refine ⟨some 0, rfl, fun m hm => ?_⟩
      cases hm
      exact ⟨_, rfl⟩
    | succ len =>
      unfold pmtCount
      split
      · exact ⟨none, rfl, fun m hm => by cases hm⟩
      rename_i x1 r1 h1
      split
      · exact ⟨none, rfl, fun m hm => by cases hm⟩
      rename_i elen r2 h2
      split
      · exact ⟨none, rfl, fun m hm => by cases hm⟩
      rename_i x3 r3 h3
      split
      · exact ⟨none, rfl, fun m hm => by cases hm⟩
      obtain ⟨n, hn, hs⟩ := ih (len + 1 - (5 + elen % 4096)) r3 (by omega)
      refine ⟨n.map (· + 1), by simp [hn], fun m hm => ?_⟩
      cases n with
      | none => cases hm
      | some k =>
        cases hm
        obtain ⟨es, hes⟩ := hs k rfl
        obtain ⟨b1, e1, e2⟩ := rd_some h1
        obtain ⟨a, b, e3, e4⟩ := rd16_some h2
        match hf : br.flatten with
        | [] => simp [hf] at b1
        | [_] => simp [hf] at b1
        | [_, _] => simp [hf] at b1
        | p :: q :: u :: t =>
          rw [hf] at e2
          have e2 : r1.flatten = t := by simpa using e2
          obtain ⟨s1, g1, f1⟩ := rd8_cons hf
          obtain ⟨s2, g2, f2⟩ := rd16_cons f1
          rw [e2] at e3
          obtain ⟨s3, g3, f3⟩ := rd16_cons (f2.trans e3)
          obtain ⟨b5, e5, e6⟩ := rd_some h3
          obtain ⟨s4, g4, f4⟩ := rd_ok (br := s3) (n := elen % 4096) (by rw [f3]; exact b5)
          rw [← e4] at g3
          have f4' : s4.flatten = r3.flatten := by rw [f4, f3, e6]
          have : ∃ es', pmtStreams k s4 = .ok es' := by
            exact ⟨es, pmtStreams_cut k r3 s4 f4'.symm es hes⟩
          obtain ⟨es', hes'⟩ := this
          rw [pmtStreams, g1]
          simp only [g2, g3, g4, hes', Res.bind_ok]
          exact ⟨_, rfl⟩

theorem parsePmt_ok (br : Br) : ∃ g, parsePmt br = .ok g := by
  unfold parsePmt
  split
  · exact ⟨_, rfl⟩
  · exact ⟨_, rfl⟩
  · rename_i len r hs
    obtain ⟨h1, h2, h3⟩ := section_len hs
    obtain ⟨r1, hr1, hf1⟩ := rd_ok (br := r) (n := 5) (by omega)
    have hl : r1.flatten.length = r.flatten.length - 5 := by rw [hf1]; simp
    obtain ⟨v2, r2, hr2, hl2⟩ := rd16_ok (br := r1) (by omega)
    obtain ⟨v3, r3, hr3, hl3⟩ := rd16_ok (br := r2) (by omega)
    simp only [hr1, hr2, hr3]
    split
    · exact ⟨_, rfl⟩
    · rename_i x4 r4 hr4
      split
      · exact ⟨_, rfl⟩
      · obtain ⟨n, hn, hes⟩ := pmtCount_ok len (len - (13 + v3 % 4096)) r4 (by omega)
        rw [hn]
        cases n with
        | none => exact ⟨_, rfl⟩
        | some m =>
          obtain ⟨es, he⟩ := hes m rfl
          simp [he]

/-! ## The header is read safely -/

theorem byteAt_ok {m : List UInt8} {i : Nat} (h : i < m.length) : byteAt m i = .ok (m[i]).toNat := by
  simp [byteAt, List.getElem?_eq_getElem h]

theorem readHeader_ok (m : List UInt8) (h : m.length = packetSize) :
    ∃ r, readHeader m = .ok r ∧ ∀ hd n, r = .ok hd (some n) → n ≤ packetSize := by
  have h : m.length = 188 := h
  unfold readHeader
  simp only [byteAt_ok (m := m) (i := 0) (by omega), byteAt_ok (m := m) (i := 1) (by omega), byteAt_ok (m := m) (i := 2) (by omega),
    byteAt_ok (m := m) (i := 3) (by omega), Res.bind_ok]
  split
  · exact ⟨_, rfl, by intro _ _ h; cases h⟩
  split
  · exact ⟨_, rfl, by intro _ _ h; cases h⟩
  split
  · unfold readAdapt
    simp only [byteAt_ok (m := m) (i := 4) (by omega), byteAt_ok (m := m) (i := 5) (by omega), Res.bind_ok]
    split
    · exact ⟨_, rfl, by intro _ _ h; cases h⟩
    rename_i ha
    have key : ∀ (hd hd' : Hd) (n : Nat),
        HdRes.ok hd (if m[3].toNat / 16 % 4 % 2 = 1 then some (4 + m[4].toNat + 1) else none) = .ok hd' (some n) → n ≤ packetSize := by
      intro hd hd' n he
      simp only [HdRes.ok.injEq] at he
      have h2 := he.2
      split at h2
      · cases h2
        simp only [packetSize]
        omega
      · cases h2
    split
    · exact ⟨_, rfl, fun _ _ h => key _ _ _ h⟩
    split
    · unfold readPcr
      simp only [byteAt_ok (m := m) (i := 6) (by omega), byteAt_ok (m := m) (i := 7) (by omega), byteAt_ok (m := m) (i := 8) (by omega),
        byteAt_ok (m := m) (i := 9) (by omega), byteAt_ok (m := m) (i := 10) (by omega), byteAt_ok (m := m) (i := 11) (by omega),
        Res.bind_ok]
      split
      · exact ⟨_, rfl, by intro _ _ h; cases h⟩
      · exact ⟨_, rfl, fun _ _ h => key _ _ _ h⟩
    · exact ⟨_, rfl, fun _ _ h => key _ _ _ h⟩
  · refine ⟨_, rfl, ?_⟩
    intro hd n he
    cases he
    decide

/-! ## Where the buffers are -/

/-- How often a buffer is in a list. -/
def cnt (k : Nat) (bs : List Buf) : Nat := (bs.map Buf.id).count k

@[simp] theorem cnt_nil (k : Nat) : cnt k [] = 0 := rfl
theorem cnt_cons (k : Nat) (b : Buf) (bs : List Buf) : cnt k (b :: bs) = cnt k [b] + cnt k bs := by
  simp [cnt, List.count_cons]; omega
@[simp] theorem cnt_append (k : Nat) (as bs : List Buf) : cnt k (as ++ bs) = cnt k as + cnt k bs := by
  simp [cnt, List.count_append]
theorem cnt_id (k : Nat) (b c : Buf) (h : b.id = c.id) : cnt k [b] = cnt k [c] := by simp [cnt, h]

/-- The buffers of a program. -/
def Prog.cnt (k : Nat) (p : Prog) : Nat := Ts.cnt k p.bufs + (p.es.map fun e => Ts.cnt k e.bufs).sum

/-- How often a buffer is in the lists. -/
def St.cnt (k : Nat) (s : St) : Nat :=
  Ts.cnt k s.buf.toList + Ts.cnt k s.free + Ts.cnt k s.bufs + (s.progs.map (Prog.cnt k)).sum

theorem sum_set {α : Type} (f : α → Nat) (l : List α) (i : Nat) (a b : α) (h : l[i]? = some a) :
    ((l.set i b).map f).sum + f a = (l.map f).sum + f b := by
  induction l generalizing i with
  | nil => simp at h
  | cons x l ih =>
    cases i with
    | zero =>
      simp only [List.getElem?_cons_zero, Option.some.injEq] at h
      subst h
      simp only [List.set_cons_zero, List.map_cons, List.sum_cons]
      omega
    | succ i =>
      have := ih i (by simpa using h)
      simp only [List.set_cons_succ, List.map_cons, List.sum_cons]
      omega

theorem appendBuf_cnt (k : Nat) (h : Hd) (bufs free : List Buf) (b : Buf) :
    cnt k (appendBuf h bufs free b).1 + cnt k (appendBuf h bufs free b).2 = cnt k bufs + cnt k free + cnt k [b] := by
  unfold appendBuf
  split
  · rename_i hx
    simp only
    rw [cnt_cons]
    omega
  · split
    · simp; omega
    · simp; omega

theorem findEs_some {pid j0 j : Nat} {es : List Es} {e : Es} (h : findEs pid j0 es = some (j, e)) :
    j0 ≤ j ∧ es[j - j0]? = some e ∧ e.pid = pid := by
  induction es generalizing j0 with
  | nil => cases h
  | cons x es ih =>
    unfold findEs at h
    split at h
    · rename_i hx
      cases h
      exact ⟨Nat.le_refl _, by simp, hx.symm⟩
    · obtain ⟨h1, h2, h3⟩ := ih h
      refine ⟨by omega, ?_, h3⟩
      have : j - j0 = (j - (j0 + 1)) + 1 := by omega
      rw [this, List.getElem?_cons_succ]
      exact h2

/-- What `findPid` finds is there. -/
def Target.In (pid : Nat) (i0 : Nat) (ps : List Prog) : Target → Prop
  | .pmt i p => i0 ≤ i ∧ ps[i - i0]? = some p ∧ p.pid = pid
  | .es i p j e => i0 ≤ i ∧ ps[i - i0]? = some p ∧ p.es[j]? = some e ∧ e.pid = pid

theorem findPid_some {pid i0 : Nat} {ps : List Prog} {t : Target} (h : findPid pid i0 ps = some t) : t.In pid i0 ps := by
  induction ps generalizing i0 with
  | nil => cases h
  | cons x ps ih =>
    unfold findPid at h
    split at h
    · rename_i hx
      cases h
      exact ⟨Nat.le_refl _, by simp, hx.symm⟩
    · split at h
      · rename_i j e he
        cases h
        obtain ⟨_, h2, h3⟩ := findEs_some he
        exact ⟨Nat.le_refl _, by simp, by simpa using h2, h3⟩
      · have := ih h
        cases t with
        | pmt i p =>
          obtain ⟨h1, h2, h3⟩ := this
          refine ⟨by omega, ?_, h3⟩
          have : i - i0 = (i - (i0 + 1)) + 1 := by omega
          rw [this, List.getElem?_cons_succ]
          exact h2
        | es i p j e =>
          obtain ⟨h1, h2, h3⟩ := this
          refine ⟨by omega, ?_, h3⟩
          have : i - i0 = (i - (i0 + 1)) + 1 := by omega
          rw [this, List.getElem?_cons_succ]
          exact h2

/-! ## A packet puts its buffer in one of the lists -/

/-- The buffers of a list hold whole packets. -/
def Whole (bs : List Buf) : Prop := ∀ b ∈ bs, b.mem.length = packetSize ∧ b.pos ≤ packetSize

/-- The lists hold whole packets. -/
structure St.Sound (s : St) : Prop where
  pat : Whole s.bufs
  progs : ∀ p ∈ s.progs, Whole p.bufs ∧ ∀ e ∈ p.es, Whole e.bufs
  buf : ∀ b, s.buf = some b → b.mem.length < packetSize ∧ b.pos = 0

theorem appendBuf_whole {h : Hd} {bufs free : List Buf} {b : Buf} (hb : Whole bufs)
    (hx : b.mem.length = packetSize ∧ b.pos ≤ packetSize) : Whole (appendBuf h bufs free b).1 := by
  unfold appendBuf
  split
  · exact hb
  · split
    · intro x hx'
      simp only [List.mem_singleton] at hx'
      subst hx'
      exact hx
    · intro x hx'
      simp only [List.mem_append, List.mem_singleton] at hx'
      rcases hx' with h | h
      · exact hb x h
      · subst h
        exact hx

theorem whole_nil : Whole [] := by intro b hb; cases hb

theorem mem_set {α : Type} {l : List α} {i : Nat} {a x : α} (h : x ∈ l.set i a) : x = a ∨ x ∈ l := by
  exact (List.mem_or_eq_of_mem_set h).symm

/-- A packet in a buffer was read: the buffer is in one of the lists, and nothing else moved. -/
structure Keeps (s : St) (b : Buf) (s' : St) : Prop where
  sound : s'.Sound
  buf : s'.buf = s.buf
  made : s'.made = s.made
  memLeft : s'.memLeft = s.memLeft
  cnt : ∀ k, s'.cnt k = s.cnt k + Ts.cnt k [b]

theorem keeps_free {s : St} (hs : s.Sound) (b : Buf) : Keeps s b { s with free := b :: s.free } := by
  refine ⟨⟨hs.pat, hs.progs, hs.buf⟩, rfl, rfl, rfl, fun k => ?_⟩
  simp only [St.cnt]
  rw [cnt_cons]
  omega

theorem sum_zero {α : Type} (l : List α) (f : α → Nat) (h : ∀ a ∈ l, f a = 0) : (l.map f).sum = 0 := by
  induction l with
  | nil => rfl
  | cons a l ih =>
    rw [List.map_cons, List.sum_cons, h a (by simp), ih (fun x hx => h x (by simp [hx]))]

theorem readPat_keeps (H : Handler) {s : St} (hs : s.Sound) (h : Hd) {b : Buf}
    (hb : b.mem.length = packetSize ∧ b.pos ≤ packetSize) :
    ∃ s', s.readPat H h b = .ok s' ∧ Keeps s b s' := by
  unfold St.readPat
  split
  · exact ⟨_, rfl, keeps_free hs b⟩
  · rename_i hp
    have hp : s.progs = [] := by simpa using hp
    simp only
    obtain ⟨g, hg⟩ := parsePat_ok (chain (appendBuf h s.bufs s.free b).1)
    have hw := appendBuf_whole (h := h) (free := s.free) hs.pat hb
    have hc := fun k => appendBuf_cnt k h s.bufs s.free b
    rw [hg]
    simp only [Res.bind_ok]
    cases g with
    | again =>
      refine ⟨_, rfl, ⟨⟨hw, hs.progs, hs.buf⟩, rfl, rfl, rfl, fun k => ?_⟩⟩
      have := hc k
      simp only [St.cnt]
      omega
    | bad =>
      refine ⟨_, rfl, ⟨⟨hw, hs.progs, hs.buf⟩, rfl, rfl, rfl, fun k => ?_⟩⟩
      have := hc k
      simp only [St.cnt]
      omega
    | ok ps =>
      have hz : ∀ k, ((ps.map fun p : Nat × Nat => ({ number := p.1, pid := p.2 } : Prog)).map (Prog.cnt k)).sum = 0 := by
        intro k
        refine sum_zero _ _ fun a ha => ?_
        simp only [List.mem_map] at ha
        obtain ⟨x, _, rfl⟩ := ha
        rfl
      have hpr : ∀ p ∈ ps.map fun p : Nat × Nat => ({ number := p.1, pid := p.2 } : Prog), Whole p.bufs ∧ ∀ e ∈ p.es, Whole e.bufs := by
        intro p hp
        simp only [List.mem_map] at hp
        obtain ⟨x, _, rfl⟩ := hp
        exact ⟨whole_nil, fun e he => by cases he⟩
      simp only
      split
      · refine ⟨_, rfl, ⟨⟨hw, hpr, hs.buf⟩, rfl, rfl, rfl, fun k => ?_⟩⟩
        have := hc k
        have := hz k
        simp only [St.cnt, St.run, hp, List.map_nil, List.sum_nil] at *
        omega
      · refine ⟨_, rfl, ⟨⟨whole_nil, hpr, hs.buf⟩, rfl, rfl, rfl, fun k => ?_⟩⟩
        have := hc k
        have := hz k
        simp only [St.cnt, St.run, hp, List.map_nil, List.sum_nil, cnt_append, cnt_nil] at *
        omega

theorem readPmt_keeps (H : Handler) {s : St} (hs : s.Sound) {i : Nat} {p : Prog} (hp : s.progs[i]? = some p) (h : Hd) {b : Buf}
    (hb : b.mem.length = packetSize ∧ b.pos ≤ packetSize) :
    ∃ s', s.readPmt H i p h b = .ok s' ∧ Keeps s b s' := by
  unfold St.readPmt
  split
  · exact ⟨_, rfl, keeps_free hs b⟩
  · rename_i he
    have he : p.es = [] := by simpa using he
    have hpm := List.mem_of_getElem? hp
    obtain ⟨hwp, hwe⟩ := hs.progs p hpm
    obtain ⟨g, hg⟩ := parsePmt_ok (chain (appendBuf h p.bufs s.free b).1)
    have hw := appendBuf_whole (h := h) (free := s.free) hwp hb
    have hc := fun k => appendBuf_cnt k h p.bufs s.free b
    simp only
    rw [hg]
    simp only [Res.bind_ok]
    have hset : ∀ q : Prog, Whole q.bufs → (∀ e ∈ q.es, Whole e.bufs) → ∀ x ∈ s.progs.set i q, Whole x.bufs ∧ ∀ e ∈ x.es, Whole e.bufs := by
      intro q h1 h2 x hx
      rcases mem_set hx with h | h
      · subst h
        exact ⟨h1, h2⟩
      · exact hs.progs x h
    have hsum := fun k (q : Prog) => sum_set (Prog.cnt k) s.progs i p q hp
    cases g with
    | again =>
      refine ⟨_, rfl, ⟨⟨hs.pat, hset _ hw hwe, hs.buf⟩, rfl, rfl, rfl, fun k => ?_⟩⟩
      have := hc k
      have := hsum k { p with bufs := (appendBuf h p.bufs s.free b).1 }
      simp only [St.cnt, St.setProg, Prog.cnt] at *
      omega
    | bad =>
      refine ⟨_, rfl, ⟨⟨hs.pat, hset _ hw hwe, hs.buf⟩, rfl, rfl, rfl, fun k => ?_⟩⟩
      have := hc k
      have := hsum k { p with bufs := (appendBuf h p.bufs s.free b).1 }
      simp only [St.cnt, St.setProg, Prog.cnt] at *
      omega
    | ok r =>
      obtain ⟨pcr, es⟩ := r
      have hz : ∀ k, ((es.map fun e : Nat × Nat × List UInt8 => ({ type := e.1, pid := e.2.1, info := e.2.2 } : Es)).map
          (fun e => Ts.cnt k e.bufs)).sum = 0 := by
        intro k
        refine sum_zero _ _ fun a ha => ?_
        simp only [List.mem_map] at ha
        obtain ⟨x, _, rfl⟩ := ha
        rfl
      have hes : ∀ e ∈ es.map fun e : Nat × Nat × List UInt8 => ({ type := e.1, pid := e.2.1, info := e.2.2 } : Es), Whole e.bufs := by
        intro e he
        simp only [List.mem_map] at he
        obtain ⟨x, _, rfl⟩ := he
        exact whole_nil
      simp only
      split
      · refine ⟨_, rfl, ⟨⟨hs.pat, hset _ hw hes, hs.buf⟩, rfl, rfl, rfl, fun k => ?_⟩⟩
        have := hc k
        have := hz k
        have := hsum k { p with
          pcrPid := pcr
          es := es.map fun e : Nat × Nat × List UInt8 => ({ type := e.1, pid := e.2.1, info := e.2.2 } : Es)
          bufs := (appendBuf h p.bufs s.free b).1 }
        simp only [St.cnt, St.setProg, Prog.cnt, St.run, he, List.map_nil, List.sum_nil] at *
        omega
      · refine ⟨_, rfl, ⟨⟨hs.pat, hset _ whole_nil hes, hs.buf⟩, rfl, rfl, rfl, fun k => ?_⟩⟩
        have := hc k
        have := hz k
        have := hsum k { p with
          pcrPid := pcr
          es := es.map fun e : Nat × Nat × List UInt8 => ({ type := e.1, pid := e.2.1, info := e.2.2 } : Es)
          bufs := [] }
        simp only [St.cnt, St.setProg, Prog.cnt, St.run, he, List.map_nil, List.sum_nil, cnt_append, cnt_nil] at *
        omega

theorem pesNext_cnt (k : Nat) (e : Es) (h : Hd) (free : List Buf) :
    cnt k (pesNext e h free).1.bufs + cnt k (pesNext e h free).2.1 = cnt k e.bufs + cnt k free := by
  unfold pesNext
  split
  · split
    · rfl
    · rfl
    · simp
  · rfl

theorem pesNext_whole (e : Es) (h : Hd) (free : List Buf) (hw : Whole e.bufs) : Whole (pesNext e h free).1.bufs := by
  unfold pesNext
  split
  · split
    · exact hw
    · exact hw
    · exact whole_nil
  · exact hw

theorem pesAdd_bufs (e : Es) (h : Hd) (free : List Buf) (b : Buf) :
    (pesAdd e h free b).1.bufs = (appendBuf h e.bufs free b).1 ∧ (pesAdd e h free b).2.1 = (appendBuf h e.bufs free b).2 := by
  unfold pesAdd
  split <;> exact ⟨rfl, rfl⟩

/-- The handlers change only the log and whether there was an error. -/
theorem runOpt_parts (H : Handler) (s : St) (ev : Option Event) :
    s.runOpt H ev = { s with log := s.log ++ ev.toList, fail := (s.runOpt H ev).fail } := by
  cases ev <;> simp [St.runOpt, St.run]

theorem readPes_keeps (H : Handler) {s : St} (hs : s.Sound) {i j : Nat} {p : Prog} {e : Es}
    (hp : s.progs[i]? = some p) (he : p.es[j]? = some e) (h : Hd) {b : Buf}
    (hb : b.mem.length = packetSize ∧ b.pos ≤ packetSize) :
    (s.readPes H i p j e h b).fail = none → Keeps s b (s.readPes H i p j e h b) := by
  have hpm := List.mem_of_getElem? hp
  obtain ⟨hwp, hwe⟩ := hs.progs p hpm
  have hwe' := hwe e (List.mem_of_getElem? he)
  have hc1 := fun k => pesNext_cnt k e h s.free
  have hw1 := pesNext_whole e h s.free hwe'
  unfold St.readPes
  generalize pesNext e h s.free = n at *
  obtain ⟨e1, free1, ev, bad1⟩ := n
  simp only at *
  rw [runOpt_parts]
  generalize (s.runOpt H ev).fail = fl
  cases bad1 with
  | true => simp
  | false =>
    simp only [Bool.false_eq_true, if_false, St.setProg]
    split
    · rename_i hx
      intro h'
      simp only at h'
      rw [h'] at hx
      simp at hx
    · have hc2 := fun k => appendBuf_cnt k h e1.bufs free1 b
      have hw2 := appendBuf_whole (h := h) (free := free1) hw1 hb
      obtain ⟨hb1, hb2⟩ := pesAdd_bufs e1 h free1 b
      rw [← hb1] at hc2 hw2
      rw [← hb2] at hc2
      generalize pesAdd e1 h free1 b = a at *
      obtain ⟨e2, free2, bad2⟩ := a
      cases bad2 with
      | true => simp
      | false =>
        intro _
        simp only [Bool.false_eq_true, if_false, List.set_set] at *
        refine ⟨⟨hs.pat, ?_, hs.buf⟩, rfl, rfl, rfl, fun k => ?_⟩
        · intro x hx
          rcases mem_set hx with h' | h'
          · subst h'
            refine ⟨hwp, fun y hy => ?_⟩
            rcases mem_set hy with h' | h'
            · subst h'
              exact hw2
            · exact hwe y h'
          · exact hs.progs x h'
        · have := hc1 k
          have := hc2 k
          have h1 := sum_set (Prog.cnt k) s.progs i p { p with es := p.es.set j e2 } hp
          have h2 := sum_set (fun e : Es => Ts.cnt k e.bufs) p.es j e e2 he
          simp only [St.cnt, Prog.cnt] at *
          omega

theorem readPacket_keeps (H : Handler) {s : St} (hs : s.Sound) {b : Buf}
    (hb : b.mem.length = packetSize) :
    ∃ s', s.readPacket H b = .ok s' ∧ (s'.fail = none → Keeps s b s') := by
  obtain ⟨r, hr, hn⟩ := readHeader_ok b.mem hb
  unfold St.readPacket
  rw [hr]
  simp only [Res.bind_ok]
  cases r with
  | bad f => exact ⟨_, rfl, fun h => by cases h⟩
  | ok h n =>
    have hpos : n.getD b.mem.length ≤ packetSize := by
      cases n with
      | none => exact Nat.le_of_eq hb
      | some n => exact hn h n rfl
    simp only
    generalize n.getD b.mem.length = pos at *
    have hb' : ({ b with pos := pos } : Buf).mem.length = packetSize ∧ ({ b with pos := pos } : Buf).pos ≤ packetSize := ⟨hb, hpos⟩
    have hid : ∀ k, cnt k [({ b with pos := pos } : Buf)] = cnt k [b] := fun k => cnt_id k _ _ rfl
    have conv : ∀ s', Keeps s { b with pos := pos } s' → Keeps s b s' :=
      fun s' hk => ⟨hk.sound, hk.buf, hk.made, hk.memLeft, fun k => by rw [hk.cnt k, hid k]⟩
    split
    · obtain ⟨s', h1, h2⟩ := readPat_keeps H hs h hb'
      exact ⟨s', h1, fun _ => conv _ h2⟩
    · split
      · rename_i i p hx
        obtain ⟨_, h2, _⟩ := findPid_some hx
        obtain ⟨s', h1, h2⟩ := readPmt_keeps H hs (by simpa using h2) h hb'
        exact ⟨s', h1, fun _ => conv _ h2⟩
      · rename_i i p j e hx
        obtain ⟨_, h2, h3, _⟩ := findPid_some hx
        exact ⟨_, rfl, fun hf' => conv _ (readPes_keeps H hs (by simpa using h2) h3 h hb' hf')⟩
      · exact ⟨_, rfl, fun _ => conv _ (keeps_free hs _)⟩

end Verif.Ts
