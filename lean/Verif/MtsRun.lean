import Verif.MtsMux

/-! # The muxer runs, with frames aligned -/

namespace Verif.Mts

open MtsSpec (pidOf ofPid)

theorem Groups.fine {s : Bool} {as : List Atom} {cs : List Chunk} (h : Groups s as cs) : ∀ a ∈ as, ∀ n, n ≤ 31 → Fine n a.ws := by
  induction h with
  | nil => simp
  | cons h1 _ _ ih =>
    intro a ha
    rcases List.mem_cons.mp ha with rfl | ha
    · exact h1.fine
    · exact ih a ha

theorem sbetween_dts (b : SBuffer) (g : List Chunk) (hne : ∀ c ∈ g, c.2 ≠ []) (h : SBetween b (flat g).length (firstOf g noFrame).dts) :
    b.dts = g.head?.map fun c => c.1.dts := by
  have hz := flat_ne g hne
  unfold SBuffer.dts
  rw [h.state]
  cases g with
  | nil => rfl
  | cons c t =>
    have h0 : ¬ (flat (c :: t)).length = 0 := fun h0 => absurd (hz.mp h0) (by simp)
    rw [if_neg h0, if_neg (by decide), h.cur h0]; rfl

/-! ## What others have buffered -/

/-- The muxer after what stream `j` buffered was written. -/
theorem flushOther_inv (ts : List Track) (hts : TracksOk ts) (i d j : Nat) (m : Mux) (gs : Nat → List Chunk) (h : MInv ts m gs) :
    ∃ gs', MInv ts (m.flushOther true i d j) gs' ∧ (m.flushOther true i d j).streams[i]? = m.streams[i]? ∧ gs' i = gs i ∧
      (m.flushOther true i d j).streams.map Stream.frames = m.streams.map Stream.frames ∧
      ∀ sm, SimInv ts m sm gs → SimInv ts (m.flushOther true i d j) (sm.flushOther true i d j) gs' ∧
        (sm.flushOther true i d j).streams[i]? = sm.streams[i]? := by
  unfold Mux.flushOther SMux.flushOther
  by_cases hji : j = i
  · simp only [if_pos hji]
    exact ⟨gs, h, by simp, by simp, by simp, fun sm hs => ⟨hs, by simp⟩⟩
  simp only [if_neg hji]
  by_cases hlt : j < ts.length
  case neg =>
    have h1 : m.streams[j]? = none := by rw [List.getElem?_eq_none_iff, h.streams]; omega
    simp only [h1]
    refine ⟨gs, h, by simp, by simp, by simp, fun sm hs => ?_⟩
    have h2 : sm.streams[j]? = none := by rw [List.getElem?_eq_none_iff, hs.streams]; omega
    simp only [h2]
    exact ⟨hs, by simp⟩
  obtain ⟨t, hj⟩ : ∃ t, ts[j]? = some t := ⟨ts[j], by simp [hlt]⟩
  obtain ⟨s, e, hs, he, hinv⟩ := h.each j t hj
  rw [hs]
  have hfilt := hinv.filt
  cases hk : t.kind with
  | video c =>
    rw [hk] at hfilt
    obtain ⟨hg, a, ha, -⟩ := hfilt
    obtain ⟨sfilt, sframes, stime⟩ := s
    simp only at ha
    subst ha
    refine ⟨gs, h, by simp, by simp, by simp, fun sm hsim => ?_⟩
    obtain ⟨ss, se, g1, -, g3⟩ := hsim.each j t _ e hj hs he
    have := g3.filt
    rw [hk] at this
    obtain ⟨ssf, ssfr, sst⟩ := ss
    simp only [SFiltInv] at this
    subst this
    simp only [g1]
    exact ⟨hsim, trivial⟩
  | id3 c =>
    rw [hk] at hfilt
    obtain ⟨hg, ha⟩ := hfilt
    obtain ⟨sfilt, sframes, stime⟩ := s
    simp only at ha
    subst ha
    refine ⟨gs, h, by simp, by simp, by simp, fun sm hsim => ?_⟩
    obtain ⟨ss, se, g1, -, g3⟩ := hsim.each j t _ e hj hs he
    have := g3.filt
    rw [hk] at this
    obtain ⟨ssf, ssfr, sst⟩ := ss
    simp only [SFiltInv] at this
    subst this
    simp only [g1]
    exact ⟨hsim, trivial⟩
  | audio hh =>
    rw [hk] at hfilt
    obtain ⟨b, hb, hbet, hsize⟩ := hfilt
    obtain ⟨sfilt, sframes, stime⟩ := s
    simp only at hb
    subst hb
    simp only
    rw [between_dts b _ hbet]
    have hsimd : ∀ sm, SimInv ts m sm gs → ∃ sb se, sm.streams[j]? = some ⟨.audio hh.isSome sb, sframes, stime⟩ ∧ sm.out.encs[j]? = some se ∧
        SBetween sb (flat (gs j)).length (firstOf (gs j) noFrame).dts := by
      intro sm hsim
      obtain ⟨ss, se, g1, g2, g3⟩ := hsim.each j t _ e hj hs he
      have := g3.filt
      rw [hk] at this
      obtain ⟨sb, x1, x2⟩ := this
      obtain ⟨ssf, ssfr, sst⟩ := ss
      have y1 := g3.frames
      have y2 := g3.time
      simp only at x1 y1 y2
      subst x1 y1 y2
      exact ⟨sb, se, g1, g2, x2⟩
    cases hg : gs j with
    | nil =>
      simp only [List.head?_nil, Option.map_none]
      refine ⟨gs, h, by simp, by simp, by simp, fun sm hsim => ?_⟩
      obtain ⟨sb, se, g1, -, g3⟩ := hsimd sm hsim
      have hd := sbetween_dts sb (gs j) hbet.ne g3
      rw [hg] at hd
      simp only [g1, hd, List.head?_nil, Option.map_none]
      exact ⟨hsim, trivial⟩
    | cons c ct =>
      simp only [List.head?_cons, Option.map_some]
      by_cases hold : c.1.dts + 31500 < d
      case neg =>
        simp only [if_neg hold]
        refine ⟨gs, h, by simp, by simp, by simp, fun sm hsim => ?_⟩
        obtain ⟨sb, se, g1, -, g3⟩ := hsimd sm hsim
        have hd := sbetween_dts sb (gs j) hbet.ne g3
        rw [hg] at hd
        simp only [g1, hd, List.head?_cons, Option.map_some, if_neg hold]
        exact ⟨hsim, trivial⟩
      simp only [if_pos hold]
      obtain ⟨f1, f2, f3⟩ := filt_flush b (gs j) hbet
      rw [f1]
      have hnf : sframes ≠ [] := fun h0 => by
        have := hinv.done h0
        rw [hg] at this; cases this
      have hem : sframes.isEmpty = false := by cases sframes with | nil => exact absurd rfl hnf | cons _ _ => rfl
      have hgr := preAtoms_groups (gs j) hbet.ne
      obtain ⟨x1, x2, e', x3, x4⟩ := emit ts hts m gs h j t _ e hj hs he (preAtoms (gs j)) hgr.fine
        { filt := .audio hh (b.forceFlush true false).1, frames := sframes, time := stime } [] (by
          intro e' ps' i1 i2 i3 i4
          refine ⟨?_, ?_, i1, i2, ?_, fun _ => rfl⟩
          · obtain ⟨fs, as, w1, w2, ⟨⟨cs, g1, c1, c2, c3⟩, w4, w5⟩⟩ := hinv.written
            refine ⟨fs, as ++ preAtoms (gs j), w1, w2, ⟨⟨cs, cs, c1, by simp, ?_⟩, ?_, ?_⟩⟩
            · rw [c2]
              refine c3.append ?_
              rw [hk]; exact hgr
            · rw [i4, wroteAll_append, w4, hinv.cc, w4]
            · have hem' : (Stream.frames ⟨.audio hh b, sframes, stime⟩).isEmpty = false := hem
              rw [hem'] at w5
              simp only [hem, Bool.false_and, Lasts, Bool.false_eq_true, if_false] at w5 ⊢
              intro x hx
              rcases List.mem_append.mp hx with hx | hx
              · exact w5 x hx
              · exact preAtoms_lasts _ x hx
          · rw [hk]
            exact ⟨_, rfl, f2, f3.trans hsize⟩
          · rw [i3, hinv.cc, i4, List.length_append, hinv.cc]; omega)
      refine ⟨_, x1, ?_, upd_ne _ _ (fun h => hji h.symm), ?_, ?_⟩
      · show (m.streams.set j _)[i]? = _
        rw [List.getElem?_set_ne hji]
      · show (m.streams.set j _).map Stream.frames = _
        rw [List.map_set]
        refine set_self _ _ _ ?_
        rw [List.getElem?_map, hs]; rfl
      · intro sm hsim
        obtain ⟨sb, se, g1, g2, g3⟩ := hsimd sm hsim
        have hd := sbetween_dts sb (gs j) hbet.ne g3
        rw [hg] at hd
        simp only [g1, hd, List.head?_cons, Option.map_some, if_pos hold]
        obtain ⟨sas, q1, q2, q3⟩ := sbuf_flush sb _ _ g3
        rw [q1]
        refine ⟨emit_sim ts hts m gs h sm hsim j t _ e hj hs he (preAtoms (gs j)) sas ?_ _ [] _ rfl rfl ?_ ?_ (.inl hnf) _ rfl x2 e' x3 x4, ?_⟩
        · rw [q2, preAtoms_shape _ hbet.ne]
        · rw [hk]
          refine ⟨_, rfl, ⟨q3.size, q3.used, q3.done, q3.state, fun h => absurd rfl h, by simp [flat]⟩⟩
        · left
          show Lasts sframes.isEmpty _
          rw [hem]
          simpa [Lasts] using preAtoms_lasts (gs j)
        · show (sm.streams.set j _)[i]? = _
          rw [List.getElem?_set_ne hji]

theorem flushOthers_inv (ts : List Track) (hts : TracksOk ts) (i d : Nat) (js : List Nat) (m : Mux) (gs : Nat → List Chunk) (h : MInv ts m gs) :
    ∃ gs', MInv ts (js.foldl (Mux.flushOther true i d) m) gs' ∧ (js.foldl (Mux.flushOther true i d) m).streams[i]? = m.streams[i]? ∧ gs' i = gs i ∧
      (js.foldl (Mux.flushOther true i d) m).streams.map Stream.frames = m.streams.map Stream.frames ∧
      ∀ sm, SimInv ts m sm gs → SimInv ts (js.foldl (Mux.flushOther true i d) m) (js.foldl (SMux.flushOther true i d) sm) gs' ∧
        (js.foldl (SMux.flushOther true i d) sm).streams[i]? = sm.streams[i]? := by
  induction js generalizing m gs with
  | nil => exact ⟨gs, h, rfl, rfl, rfl, fun sm hs => ⟨hs, rfl⟩⟩
  | cons j js ih =>
    obtain ⟨gs1, a1, a2, a3, a4, a5⟩ := flushOther_inv ts hts i d j m gs h
    obtain ⟨gs2, b1, b2, b3, b4, b5⟩ := ih _ gs1 a1
    refine ⟨gs2, b1, b2.trans a2, b3.trans a3, b4.trans a4, fun sm hs => ?_⟩
    obtain ⟨c1, c2⟩ := a5 sm hs
    obtain ⟨d1, d2⟩ := b5 _ c1
    exact ⟨d1, d2.trans c2⟩

/-! ## A frame -/

/-- If NAL units have lengths of four bytes then the size is known before. -/
def Sized (k : Kind) : Prop := match k with | .video c => c.lenSize = 4 | _ => True

theorem grown (k : Kind) (t : Nat) (f : InFrame) (c : Chunk) (h : ChunkOk k t f c) (hs : Sized k) : c.2.length = k.grown f.key f.size := by
  have hc := h.2.2
  cases k with
  | video v =>
    obtain ⟨a', conv, z, -, h2, h3, -⟩ := hc
    have := h3 hs
    rw [h2, Kind.grown]
    simp only [List.length_append, List.length_replicate]
    split <;> (try simp only [List.length_nil]) <;> omega
  | audio hh =>
    cases hh with
    | some a =>
      rw [show c.2 = a.header (f.size + 7) ++ f.data from hc, List.length_append, Kind.grown]
      rfl
    | none => rw [show c.2 = f.data from hc]; rfl
  | id3 cc =>
    rw [show c.2 = id3Header f.size ++ f.data from hc, List.length_append, Kind.grown]
    rfl

theorem Lasts.append {l : Bool} {as bs : List Atom} (h1 : ∀ x ∈ as, x.last = false) (h2 : Lasts l bs) : Lasts l (as ++ bs) := by
  cases l with
  | false =>
    simp only [Lasts, Bool.false_eq_true, if_false] at h2 ⊢
    intro x hx
    rcases List.mem_append.mp hx with hx | hx
    · exact h1 x hx
    · exact h2 x hx
  | true =>
    obtain ⟨i, a, rfl, h3, h4⟩ := h2
    refine ⟨as ++ i, a, by simp, h3, fun x hx => ?_⟩
    rcases List.mem_append.mp hx with hx | hx
    · exact h1 x hx
    · exact h4 x hx

theorem frame_inv (ts : List Track) (hts : TracksOk ts) (i : Nat) (t : Track) (hi : ts[i]? = some t) (m : Mux) (gs : Nat → List Chunk) (h : MInv ts m gs)
    (s : Stream) (f : InFrame) (rest : List InFrame) (hs : m.streams[i]? = some s) (hf : s.frames = f :: rest) :
    (m.frame true i s f rest = .err ∧ ∃ filt g time l, FiltInv t.kind filt g ∧ filt.calls true (frameCalls time f l) = .err) ∨
    ∃ m' gs', m.frame true i s f rest = .ok m' ∧ MInv ts m' gs' ∧ m'.streams.map Stream.frames = (m.streams.map Stream.frames).set i rest ∧
      ∀ sm ss, Sized t.kind → SimInv ts m sm gs → sm.streams[i]? = some ss → SimInv ts m' (sm.frame true i ss f rest) gs' := by
  obtain ⟨gs1, a1, a2, a3, a4, a5⟩ := flushOthers_inv ts hts i s.time (List.range m.streams.length) m gs h
  obtain ⟨s0, e, b1, b2, b3⟩ := a1.each i t hi
  rw [a2, hs] at b1
  obtain rfl := Option.some.inj b1
  have htm := List.mem_of_getElem? hi
  obtain ⟨fs, as0, w1, w2, ⟨⟨cs, g1, c1, c2, c3⟩, w4, w5⟩⟩ := b3.written
  have hfr : f ∈ t.frames := by rw [w1, hf]; simp
  unfold Mux.frame
  rcases filt_frame t.kind (hts.kind t htm) s.filt (gs1 i) b3.filt f (hts.frames t htm f hfr) s.time rest.isEmpty with ⟨e1, -⟩ | ⟨filt', as, x1, x2, c, e1, e2, e3, e4, e5, e6, e7, e8, e9, e10⟩
  · left
    refine ⟨?_, s.filt, gs1 i, s.time, rest.isEmpty, b3.filt, e1⟩
    unfold frameCalls at e1
    simp only [e1]
  · right
    have e1' := e1
    unfold frameCalls at e1
    simp only [e1]
    have hne : (s.frames.isEmpty && !fs.isEmpty) = false := by rw [hf]; rfl
    rw [hne] at w5
    simp only [Lasts, Bool.false_eq_true, if_false] at w5
    obtain ⟨x3, x4, e', x5, x6⟩ := emit ts hts _ gs1 a1 i t s e hi (by rw [a2]; exact hs) b2 as e4.fine
      { filt := filt', frames := rest, time := s.time + f.duration } x2 (by
        intro e' ps' i1 i2 i3 i4
        refine ⟨⟨fs ++ [f], as0 ++ as, ?_, ?_, ⟨⟨cs ++ [c], g1 ++ x1, ?_, ?_, c3.append e4⟩, ?_, ?_⟩⟩, e5, i1, i2, ?_, ?_⟩
        · rw [w1, hf]; simp
        · show s.time + f.duration = _
          rw [w2]; simp [InFrame.span]; omega
        · refine c1.snoc ?_
          rw [← w2]; exact e2
        · rw [c2, List.append_assoc, e3, List.append_assoc]
        · rw [i4, wroteAll_append, w4, b3.cc, w4]
        · have : (!(fs ++ [f]).isEmpty) = true := by cases fs <;> rfl
          show Lasts (rest.isEmpty && !(fs ++ [f]).isEmpty) _
          rw [this, Bool.and_true]
          exact Lasts.append w5 e6
        · rw [i3, b3.cc, i4, List.length_append, b3.cc]; omega
        · intro hr
          simp only at hr
          exact e7 (by rw [hr]; rfl))
    refine ⟨_, _, rfl, x3, ?_, ?_⟩
    · show (List.set _ i _).map Stream.frames = _
      rw [List.map_set, a4]
    · intro sm ss hsz hsim hss
      obtain ⟨y1, y2⟩ := a5 sm hsim
      have hlen : sm.streams.length = m.streams.length := by rw [hsim.streams, h.streams]
      obtain ⟨ss', se, z1, z2, z3⟩ := y1.each i t s e hi (by rw [a2]; exact hs) b2
      rw [y2, hss] at z1
      obtain rfl := Option.some.inj z1
      have hcl := grown t.kind s.time f c e2 hsz
      obtain ⟨sf', sas, q1, q2, q3⟩ := sfilt_frame t.kind ss.filt _ _ z3.filt ss.time f.key f.size (by
        intro hk
        have hFrame := hts.frames t htm f hfr
        have hp := hFrame.some hk
        obtain ⟨p, ps, hpp⟩ := List.exists_cons_of_ne_nil hp
        have := List.length_pos_iff.mpr (hFrame.pieces p (by rw [hpp]; simp))
        unfold InFrame.size
        rw [hpp]; simp; omega) rest.isEmpty
      unfold SMux.frame
      simp only [q1]
      rw [hlen, z3.time]
      rw [← hcl] at q2 q3
      refine emit_sim ts hts _ gs1 a1 _ y1 i t s e hi (by rw [a2]; exact hs) b2 as sas (by rw [q2, e8]) { filt := filt', frames := rest, time := s.time + f.duration } x2
        { filt := sf', frames := rest, time := s.time + f.duration } rfl rfl ?_ (.inl e6) (.inl (by rw [hf]; simp))
        { streams := _, out := _ } rfl x4 e' x5 x6
      show SFiltInv t.kind sf' _ _
      rw [e9]
      cases hk : t.kind with
      | video v => rw [hk] at q3; exact q3
      | id3 v => rw [hk] at q3; exact q3
      | audio hh =>
        rw [hk] at q3 e9
        have hfi := b3.filt
        have hfi' := e5
        rw [hk] at hfi hfi'
        obtain ⟨b, -, hbet, -⟩ := hfi
        obtain ⟨b', -, hbet', -⟩ := hfi'
        obtain ⟨sb, q4, q5⟩ := q3
        refine ⟨sb, q4, ⟨q5.size, q5.used, q5.done, q5.state, fun hu => ?_, q5.fits⟩⟩
        rw [q5.cur hu]
        have hx2 : x2 ≠ [] := by
          rintro rfl
          exact hu (by rw [← e9]; rfl)
        have hc1 : c.1.dts = s.time := e2.2.1
        rw [e10 hx2 noFrame]
        have hz := flat_ne (gs1 i) hbet.ne
        by_cases hfit : (flat (gs1 i)).length + c.2.length ≤ 2930
        · rw [if_pos hfit]
          cases hg : gs1 i with
          | nil =>
            rw [if_neg (show ¬ (_ ∧ (flat []).length ≠ 0) from fun h => h.2 rfl), z3.time]
            exact hc1.symm
          | cons x y =>
            rw [← hg, if_pos (show _ ∧ _ ≠ 0 from ⟨hfit, fun h0 => by rw [hz.mp h0] at hg; cases hg⟩), hg]; rfl
        · rw [if_neg hfit, if_neg (show ¬ (_ ∧ _) from fun h => hfit h.1), z3.time]
          exact hc1.symm

/-! ## All of the frames -/

theorem choose_none (k : Nat) (best : Option (Nat × Nat)) (l : List (Bool × Nat)) (h : choose k best l = none) : best = none ∧ ∀ x ∈ l, x.1 = false := by
  induction l generalizing k best with
  | nil =>
    cases best with
    | none => exact ⟨rfl, by simp⟩
    | some b => cases h
  | cons x l ih =>
    obtain ⟨has, t⟩ := x
    unfold choose at h
    obtain ⟨h1, h2⟩ := ih _ _ h
    cases has with
    | false => exact ⟨h1, by simpa using h2⟩
    | true =>
      cases best with
      | none => cases h1
      | some b =>
        obtain ⟨b1, b2⟩ := b
        simp only [if_true] at h1
        split at h1 <;> cases h1

theorem choose_some (k : Nat) (best : Option (Nat × Nat)) (l : List (Bool × Nat)) (i : Nat) (h : choose k best l = some i) :
    (∃ u, best = some (i, u)) ∨ (k ≤ i ∧ ∃ t, l[i - k]? = some (true, t)) := by
  induction l generalizing k best with
  | nil =>
    cases best with
    | none => cases h
    | some b => exact .inl ⟨b.2, by simp only [choose, Option.map_some, Option.some.injEq] at h; rw [← h]⟩
  | cons x l ih =>
    obtain ⟨has, t⟩ := x
    unfold choose at h
    rcases ih _ _ h with ⟨u, hu⟩ | ⟨h1, t', h2⟩
    · cases has with
      | false => exact .inl ⟨u, by simpa using hu⟩
      | true =>
        have hnew : (k, t) = (i, u) → (∃ u, best = some (i, u)) ∨ (k ≤ i ∧ ∃ t', ((true, t) :: l)[i - k]? = some (true, t')) := by
          intro h3
          have h4 : k = i := congrArg Prod.fst h3
          subst h4
          exact .inr ⟨Nat.le_refl _, t, by simp⟩
        cases best with
        | none => exact hnew (Option.some.inj hu)
        | some b =>
          obtain ⟨b1, b2⟩ := b
          simp only [if_true] at hu
          split at hu
          · exact hnew (Option.some.inj hu)
          · exact .inl ⟨u, hu⟩
    · refine .inr ⟨by omega, t', ?_⟩
      rw [show i - k = (i - (k + 1)) + 1 by omega, List.getElem?_cons_succ]; exact h2

/-- The frames that are left. -/
def left (fss : List (List InFrame)) : Nat := (fss.map List.length).sum

theorem left_set (fss : List (List InFrame)) (i : Nat) (f : InFrame) (rest : List InFrame) (h : fss[i]? = some (f :: rest)) : left (fss.set i rest) + 1 = left fss := by
  induction fss generalizing i with
  | nil => simp at h
  | cons x fss ih =>
    cases i with
    | zero =>
      simp only [List.getElem?_cons_zero, Option.some.injEq] at h
      subst h
      simp [left]; omega
    | succ i =>
      rw [List.getElem?_cons_succ] at h
      have := ih i h
      simp only [left, List.set_cons_succ, List.map_cons, List.sum_cons] at this ⊢
      omega

theorem left_zero (fss : List (List InFrame)) (h : left fss = 0) : ∀ x ∈ fss, x = [] := by
  induction fss with
  | nil => simp
  | cons y fss ih =>
    simp only [left, List.map_cons, List.sum_cons] at h
    intro x hx
    rcases List.mem_cons.mp hx with rfl | hx
    · exact List.eq_nil_of_length_eq_zero (by omega)
    · exact ih (by simp only [left]; omega) x hx

theorem left_nil (l : List Stream) : left (l.map fun _ => []) = 0 := by
  induction l with
  | nil => rfl
  | cons x l ih => simpa [left] using ih

theorem sim_turns {ts : List Track} {m : Mux} {sm : SMux} {gs : Nat → List Chunk} (h : MInv ts m gs) (hs : SimInv ts m sm gs) :
    sm.streams.map SStream.turn = m.streams.map Stream.turn := by
  apply List.ext_getElem?
  intro i
  rw [List.getElem?_map, List.getElem?_map]
  by_cases hi : i < ts.length
  · obtain ⟨s, e, h1, h2, -⟩ := h.each i ts[i] (by simp [hi])
    obtain ⟨ss, se, h3, -, h4⟩ := hs.each i ts[i] s e (by simp [hi]) h1 h2
    rw [h1, h3]
    simp only [Option.map_some, SStream.turn, Stream.turn, h4.frames, h4.time]
  · rw [List.getElem?_eq_none (by rw [hs.streams]; omega), List.getElem?_eq_none (by rw [h.streams]; omega)]; rfl

/-- Each frame of the tracks can be converted. -/
def Good (ts : List Track) : Prop :=
  ∀ t ∈ ts, ∀ f ∈ t.frames, ∀ filt g time l, FiltInv t.kind filt g → filt.calls true (frameCalls time f l) ≠ .err

theorem run_inv (ts : List Track) (hts : TracksOk ts) (n : Nat) (m : Mux) (gs : Nat → List Chunk) (h : MInv ts m gs) (hn : left (m.streams.map Stream.frames) = n) :
    (m.run true n = .err ∧ ¬ Good ts) ∨
    ∃ m' gs', m.run true n = .ok m' ∧ MInv ts m' gs' ∧ (∀ s ∈ m'.streams, s.frames = []) ∧
      ∀ sm, (∀ t ∈ ts, Sized t.kind) → SimInv ts m sm gs → SimInv ts m' (sm.run true n) gs' := by
  induction n generalizing m gs with
  | zero =>
    exact .inr ⟨m, gs, rfl, h, fun s hs => left_zero _ hn _ (List.mem_map_of_mem hs), fun sm _ hsim => hsim⟩
  | succ n ih =>
    rw [Mux.run]
    cases hch : choose 0 none (m.streams.map Stream.turn) with
    | none =>
      have hall := (choose_none _ _ _ hch).2
      have h0 : ∀ x ∈ m.streams, x.frames = [] := by
        intro x hx
        have := hall x.turn (List.mem_map_of_mem hx)
        simpa [Stream.turn] using this
      have : left (m.streams.map Stream.frames) = 0 := by
        have h1 : m.streams.map Stream.frames = m.streams.map fun _ => [] := List.map_congr_left h0
        rw [h1]
        exact left_nil m.streams
      omega
    | some i =>
      rcases choose_some _ _ _ _ hch with ⟨u, hu⟩ | ⟨-, tm, htm⟩
      · cases hu
      rw [Nat.sub_zero, List.getElem?_map] at htm
      obtain ⟨s, hs, hst⟩ := Option.map_eq_some_iff.mp htm
      obtain ⟨sf, sfr, stm⟩ := s
      have hfr : sfr ≠ [] := by
        rintro rfl
        simp [Stream.turn] at hst
      obtain ⟨f, rest, rfl⟩ := List.exists_cons_of_ne_nil hfr
      simp only [hs]
      have hilt : i < ts.length := by rw [← h.streams]; exact lt_of_get hs
      obtain ⟨t, hi⟩ : ∃ t, ts[i]? = some t := ⟨ts[i], by simp [hilt]⟩
      have hlf : (m.streams.map Stream.frames)[i]? = some (f :: rest) := by rw [List.getElem?_map, hs]; rfl
      rcases frame_inv ts hts i t hi m gs h _ f rest hs rfl with ⟨h1, filt, g, time, l, h2, h3⟩ | ⟨m1, gs1, h1, h2, h3, h4⟩
      · left
        rw [h1]
        refine ⟨rfl, fun hg => ?_⟩
        have htm := List.mem_of_getElem? hi
        obtain ⟨s0, e0, q1, q2, q3⟩ := h.each i t hi
        rw [hs] at q1
        obtain rfl := Option.some.inj q1
        obtain ⟨fs, as0, w1, -⟩ := q3.written
        exact hg t htm f (by rw [w1]; simp) filt g time l h2 h3
      · rw [h1]
        simp only
        rcases ih m1 gs1 h2 (by rw [h3]; have := left_set _ i f rest hlf; omega) with hr | ⟨m2, gs2, r1, r2, r3, r4⟩
        · exact .inl hr
        · refine .inr ⟨m2, gs2, r1, r2, r3, fun sm hsz hsim => ?_⟩
          rw [SMux.run, sim_turns h hsim, hch]
          obtain ⟨s0, e0, q1, q2, q3⟩ := h.each i t hi
          rw [hs] at q1
          obtain rfl := Option.some.inj q1
          obtain ⟨ss, se, p1, -, p3⟩ := hsim.each i t _ e0 hi hs q2
          obtain ⟨ssf, ssfr, sst⟩ := ss
          have hssf : ssfr = f :: rest := p3.frames
          subst hssf
          simp only [p1]
          exact r4 _ hsz (h4 sm _ (hsz t (List.mem_of_getElem? hi)) hsim p1)

/-! ## A segment -/

theorem init_inv (ts : List Track) : MInv ts (initMux ts) (fun _ => []) := by
  refine ⟨by simp [initMux], by simp [initMux], ?_, by simp [initMux]⟩
  intro i t hi
  refine ⟨{ filt := t.kind.filt, frames := t.frames, time := t.time }, { info := t.info, cc := t.kind.cc }, by simp [initMux, hi], by simp [initMux, hi], ?_⟩
  refine ⟨⟨[], [], rfl, rfl, ⟨⟨[], [], trivial, rfl, .nil⟩, rfl, ?_⟩⟩, ?_, rfl, ⟨rfl, rfl⟩, rfl, fun _ => rfl⟩
  · simp [Lasts]
  · cases hk : t.kind with
    | video c => exact ⟨rfl, _, rfl, rfl⟩
    | audio hh => exact ⟨_, rfl, ⟨rfl, rfl, by simp, rfl, by simp, by simp [flat]⟩, rfl⟩
    | id3 c => exact ⟨rfl, rfl⟩

theorem init_sim (ts : List Track) : SimInv ts (initMux ts) (initSMux ts) (fun _ => []) := by
  refine ⟨by simp [initSMux], by simp [initSMux], rfl, ?_⟩
  intro i t s e hi hs he
  simp only [initMux, List.getElem?_map, hi, Option.map_some, Option.some.injEq] at hs he
  subst hs he
  refine ⟨{ filt := t.kind.sfilt, frames := t.frames, time := t.time }, { info := t.info, cc := t.kind.cc, initialCc := t.kind.cc },
    by simp only [initSMux, List.getElem?_map, hi, Option.map_some], by simp only [initSMux, List.getElem?_map, hi, Option.map_some], ⟨rfl, rfl, ?_, rfl, rfl, fun _ => rfl⟩⟩
  cases hk : t.kind with
  | video c => rfl
  | audio hh => exact ⟨_, rfl, ⟨rfl, rfl, rfl, rfl, fun h => absurd rfl h, by simp [flat]⟩⟩
  | id3 c => rfl

theorem init_left (ts : List Track) : left ((initMux ts).streams.map Stream.frames) = frameCount ts := by
  simp [left, initMux, frameCount, Function.comp_def]

/-- A segment: the packets of each track are those of its frames, in groups. -/
theorem segment_inv (ts : List Track) (hts : TracksOk ts) :
    (segment true ts = .err ∧ ¬ Good ts) ∨
    ∃ ps, segment true ts = .ok ps ∧ (∀ p ∈ ps, p.length = 188 ∧ ∃ t ∈ ts, pidOf p = t.pid) ∧
      (∀ t ∈ ts, ∃ cs as, Matches t.kind t.time t.frames cs ∧ Groups t.kind.single as cs ∧ ofPid t.pid ps = wroteAll t.info t.kind.cc as ∧ Lasts (!t.frames.isEmpty) as) ∧
      ((∀ t ∈ ts, Sized t.kind) → announced true ts = 376 + 188 * ps.length) := by
  rcases run_inv ts hts (frameCount ts) (initMux ts) _ (init_inv ts) (init_left ts) with ⟨h1, h2⟩ | ⟨m, gs, h1, h2, h3, h4⟩
  · left
    exact ⟨by rw [segment, h1]; rfl, h2⟩
  · right
    refine ⟨m.out.packets, by rw [segment, h1]; rfl, h2.all, ?_, ?_⟩
    · intro t ht
      obtain ⟨i, hi⟩ := List.mem_iff_getElem?.mp ht
      obtain ⟨s, e, q1, q2, q3⟩ := h2.each i t hi
      have hs := h3 s (List.mem_of_getElem? q1)
      obtain ⟨fs, as, w1, -, ⟨⟨cs, g1, c1, c2, c3⟩, w3, w4⟩⟩ := q3.written
      rw [hs, List.append_nil] at w1
      rw [q3.done hs, List.append_nil] at c2
      subst c2
      refine ⟨cs, as, by rw [w1]; exact c1, c3, w3, ?_⟩
      rw [hs] at w4
      rw [w1]; exact w4
    · intro hsz
      exact (h4 _ hsz (init_sim ts)).offset

end Verif.Mts
