import Verif.M3u8Periods

/-! # Media playlists: a client finds the channel (C106) -/

namespace Verif.M3u8

open Verif.Sub (str padded digits)
open Verif.SubSpec (isDigit)
open Verif.M3u8Spec
open Verif.PName (Bytes Name dec write)
open Verif.SegmentInfo (PIter pinit mget Its Sorted valAt noBitrate)

/-! ## All periods -/

def finals (c : Chan) (f : Conf) : St → Nat → List Period → St
  | r, _, [] => r
  | r, disc, p :: ps => finals c f (ended c f (begun c f r disc p) p) (disc + 1) ps

/-- What the start of the first of the periods needs. -/
def Starts (c : Chan) (f : Conf) (s : P) (r : St) (disc : Nat) (p : Period) : Prop :=
  (disc = r.disc + if s.i > 0 || (decide (c.skipSegs > 0) && decide (p.idx = c.initIdx)) then 1 else 0) ∧
  (f.cont.hasInit = true → (mapOf c p.idx ≠ s.lastMap ∧ (s.i > 0 ∨ c.skipSegs = 0 ∨ p.idx = c.initIdx)) ∨ r.map = mapAt c f p.idx) ∧
  (f.cont.hasInit = false → r.map = none)

theorem run_periods (b : Before) (c : Chan) (f : Conf) (h : Ok c f) {milli : Nat} (hm : 0 < milli) (hc : c.timescale = 1000 * milli) :
    ∀ (ps : List Period) (s : P) (r : St) (k disc : Nat), PersOk k ps → (∀ p ∈ ps, p ∈ c.periods) → PInv c s r k →
    (∀ p ps', ps = p :: ps' → Starts c f s r disc p) → run b r (periodsLoop c f milli ps s) = some (finals c f r disc ps)
  | [], _, _, _, _, _, _, _, _ => rfl
  | p :: ps, s, r, k, disc, hp, hsub, hi, hs => by
    obtain ⟨s1, s2, s3⟩ := hs p ps rfl
    have hk : k ≤ p.idx := hp.1
    obtain ⟨_, w2, w3, w4, _⟩ := written_durs hp
    have hlt : p.idx < invalid := by
      have h1 := hp.2.2.2.2.2.1
      have h2 : 0 < count p := by
        rw [w2]
        cases hpe : pending p with
        | true => simp
        | false => have := List.length_pos_iff.2 (w4 hpe); omega
      omega
    have hg : infoGet p.idx s.infos = infoGet p.idx c.infos := hi.infos p.idx hk
    have hmap : (infoGet p.idx s.infos).1 = mapOf c p.idx := by rw [hg, infoGet_mapOf h.maps.2 hlt]
    rw [periodsLoop, hmap, List.append_assoc, run_append,
      run_head b c f hc p s.i s.lastMap disc r (h.dates p (hsub p (by simp))) hi.date s1 s2 s3, Option.bind_some, run_append]
    obtain ⟨j, hjk, hq⟩ := hi.q
    obtain ⟨p1, p2, p3⟩ := run_period b c f h hm hc hp s.parts s.its (begun c f r disc p) hi.dur hi.gap hi.parts hjk hq hi.its
    rw [p1, Option.bind_some, finals]
    cases ps with
    | nil => rfl
    | cons q qs =>
      have hpe : pending p = false := by
        cases hpe : pending p with
        | false => rfl
        | true => have := w3 hpe; cases this
      refine run_periods b c f h hm hc (q :: qs) _ _ (p.idx + count p) (disc + 1) hp.2.2.2.2.2.2 (fun x hx => hsub x (by simp at hx ⊢; right; exact hx)) ?_ ?_
      · refine ⟨hi.dur, hi.gap, ?_, ?_, ⟨_, Nat.le_refl _, p2⟩, p3, ?_⟩
        · show nextOf c f p = []
          unfold nextOf; rw [if_neg (by simp [hpe])]
        · show (if durs p = [] then _ else none) = none
          rw [if_neg (w4 hpe)]
        · intro y hy
          have : p.idx ≤ y := by omega
          unfold infoGet
          rw [infoLoop_again this]
          exact hi.infos y (by omega)
      · intro q' qs' he
        refine ⟨?_, ?_, ?_⟩
        · show disc + 1 = disc + _
          rw [if_pos (by simp)]
        · intro hh
          show (mapOf c q'.idx ≠ (periodHead c f milli p s.i (mapOf c p.idx) s.lastMap).2 ∧ (s.i + 1 > 0 ∨ _)) ∨ mapAt c f p.idx = mapAt c f q'.idx
          have e : (periodHead c f milli p s.i (mapOf c p.idx) s.lastMap).2 = mapOf c p.idx := by
            unfold periodHead; rw [hh]; rfl
          rw [e]
          by_cases hm2 : mapOf c q'.idx = mapOf c p.idx
          · right; unfold mapAt; rw [hm2]
          · exact .inl ⟨hm2, .inl (by omega)⟩
        · intro hh
          show mapAt c f p.idx = none
          unfold mapAt; rw [hh]; rfl

theorem finals_eq (c : Chan) (f : Conf) : ∀ (ps : List Period) (r : St) (disc k : Nat), PersOk k ps → r.parts = [] →
    (finals c f r disc ps).head = r.head ∧
    (finals c f r disc ps).segs = r.segs ++ allSegs c f r.rate disc (r.head.seq + r.head.skip + r.segs.length) ps ∧
    (finals c f r disc ps).hint = hints c f r.hint (ps.flatMap fun p => List.range' p.idx (count p)) ∧
    (finals c f r disc ps).parts = (match ps.getLast? with | some p => nextOf c f p | none => []) ∧
    (finals c f r disc ps).reports = r.reports ∧ (finals c f r disc ps).ended = r.ended
  | [], r, disc, k, _, hr => by simp [finals, allSegs, hints, hr]
  | p :: ps, r, disc, k, hp, hr => by
    obtain ⟨_, w2, w3, w4, _⟩ := written_durs hp
    rw [finals]
    cases ps with
    | nil =>
      simp only [finals, ended, begun, allSegs, List.append_nil, List.flatMap_cons, List.flatMap_nil, List.getLast?_singleton, and_self]
    | cons q qs =>
      have hn : (ended c f (begun c f r disc p) p).parts = [] := by
        show nextOf c f p = []
        unfold nextOf
        rw [if_neg]
        intro hpe
        have := w3 hpe
        cases this
      obtain ⟨i1, i2, i3, i4, i5, i6⟩ := finals_eq c f (q :: qs) (ended c f (begun c f r disc p) p) (disc + 1) _ hp.2.2.2.2.2.2 hn
      refine ⟨i1, ?_, ?_, ?_, i5, i6⟩
      · rw [i2]
        conv => rhs; rw [allSegs]
        simp only [ended, begun, List.append_assoc, List.length_append, Nat.add_assoc]
      · rw [i3]; conv => rhs; rw [List.flatMap_cons, hints_append]
        rfl
      · rw [i4, List.getLast?_cons_cons]

/-! ## No line feeds within lines -/

theorem nl_app {a b : Bytes} (h1 : 10 ∉ a) (h2 : 10 ∉ b) : 10 ∉ a ++ b := by simp [h1, h2]
theorem nl_cons {x : UInt8} {b : Bytes} (h1 : 10 ≠ x) (h2 : 10 ∉ b) : 10 ∉ x :: b := by simp [h1, h2]

theorem nl_secs (v : Nat) : 10 ∉ secs v := secs_no v (by decide) (by decide)
theorem nl_dec (v : Nat) : 10 ∉ dec v := dec_no v (by decide)
theorem nl_padded (w v : Nat) : 10 ∉ padded w v := padded_no w v (by decide)
theorem nl_write {id : Bytes} {m : Nat} {n : Name} (h : extBytes n) : 10 ∉ write id m n := write_no h (by decide)

def Clean (ls : List Bytes) : Prop := ∀ l ∈ ls, 10 ∉ l

theorem Clean.nil : Clean [] := by intro l h; cases h
theorem Clean.one {l : Bytes} (h : 10 ∉ l) : Clean [l] := by intro x hx; simp at hx; subst hx; exact h
theorem Clean.cons {l : Bytes} {ls : List Bytes} (h : 10 ∉ l) (h2 : Clean ls) : Clean (l :: ls) := by
  intro x hx; rcases List.mem_cons.1 hx with rfl | hx
  · exact h
  · exact h2 x hx
theorem Clean.append {a b : List Bytes} (h1 : Clean a) (h2 : Clean b) : Clean (a ++ b) := by
  intro x hx; rcases List.mem_append.1 hx with hx | hx
  · exact h1 x hx
  · exact h2 x hx

theorem nl_partUri (c : Chan) (k : Cont) (i p : Nat) : 10 ∉ partUri c k.ext i p :=
  nl_app (by decide +kernel) (nl_app (nl_write (pName_ok k i p)) (by decide))

theorem clean_parts (c : Chan) (k : Cont) (milli idx : Nat) : ∀ (ds : List Nat) (t s p : Nat), Clean (partsLoop c k.ext milli idx t s p ds)
  | [], _, _, _ => .nil
  | d :: ds, t, s, p => by
    rw [partsLoop]
    split
    · exact .cons (nl_app (by decide +kernel) (nl_partUri c k idx p)) (clean_parts c k milli idx ds _ _ _)
    · refine .cons (nl_app (by decide +kernel) (nl_app (nl_secs _) (nl_app ?_ (nl_partUri c k idx p)))) (clean_parts c k milli idx ds _ _ _)
      unfold partFlags
      (repeat' split) <;> decide +kernel

theorem clean_partsOf (c : Chan) (k : Cont) (milli : Nat) (s : S) : Clean (partsOf c k.ext milli s).1 := by
  unfold partsOf
  split
  · exact .nil
  · split
    · exact clean_parts c k milli _ _ _ _ _
    · exact .nil

theorem clean_step (c : Chan) (k : Cont) (milli : Nat) (ests : List (Nat → Nat → Nat)) (d : Nat) (s : S) (h : Clean s.out) :
    Clean (segStep c k.ext milli ests d s).out := by
  unfold segStep
  refine (((h.append (clean_partsOf c k milli s)).append (.one (nl_app (by decide +kernel) (nl_app (nl_secs _) (by decide))))).append ?_).append
    (.one (nl_write (sName_ok k s.seg)))
  unfold rateTag
  split
  · exact .one (by decide +kernel)
  · split
    · exact .one (nl_app (by decide +kernel) (nl_dec _))
    · exact .nil

theorem clean_steps (c : Chan) (k : Cont) (milli : Nat) (ests : List (Nat → Nat → Nat)) : ∀ (xs : List Nat) (s : S), Clean s.out →
    Clean (steps c k.ext milli ests xs s).out
  | [], _, h => h
  | x :: xs, s, h => clean_steps c k milli ests xs _ (clean_step c k milli ests x s h)

theorem clean_periods (c : Chan) (f : Conf) (milli : Nat) : ∀ (ps : List Period) (s : P), Clean (periodsLoop c f milli ps s)
  | [], _ => .nil
  | p :: ps, s => by
    rw [periodsLoop]
    refine (Clean.append ?_ ?_).append (clean_periods c f milli ps _)
    · unfold periodHead
      refine (Clean.append ?_ ?_).append ?_
      · split
        · exact .one (by decide +kernel)
        · exact .nil
      · split
        · exact .one (nl_app (by decide +kernel) (nl_app (nl_write (n := .init _) trivial) (by decide)))
        · exact .nil
      · split
        · refine .one ?_
          unfold dateLine
          exact nl_app (by decide +kernel) (nl_app (nl_dec _) (nl_cons (by decide) (nl_app (nl_padded _ _) (nl_cons (by decide) (nl_app (nl_padded _ _)
            (nl_cons (by decide) (nl_app (nl_padded _ _) (nl_cons (by decide) (nl_app (nl_padded _ _) (nl_cons (by decide) (nl_app (nl_padded _ _)
            (nl_cons (by decide) (nl_app (nl_padded _ _) (by decide +kernel))))))))))))))
        · exact .nil
    · unfold writePeriod
      refine Clean.append ?_ ?_
      · rw [eltsLoop_eq]
        exact clean_steps c f.cont milli _ _ _ .nil
      · split
        · exact clean_partsOf c f.cont milli _
        · exact .nil

theorem nl_commas : ∀ (ls : List Bytes), Clean ls → 10 ∉ commas ls
  | [], _ => by simp [commas]
  | [a], h => h a (by simp)
  | a :: b :: l, h => by
    rw [commas]
    · exact nl_app (h a (by simp)) (nl_cons (by decide) (nl_commas (b :: l) fun x hx => h x (by simp at hx ⊢; right; exact hx)))
    · simp

theorem clean_lines (c : Chan) (f : Conf) : Clean (lines c f) := by
  unfold lines
  refine (((((Clean.append ?_ ?_).append ?_).append ?_).append (clean_periods c f _ _ _)).append ?_).append ?_
  · unfold header
    exact .cons (by decide +kernel) (.cons (nl_app (by decide +kernel) (nl_dec _)) (.cons (nl_app (by decide +kernel) (nl_dec _))
      (.cons (nl_app (by decide +kernel) (nl_dec _)) (.cons (nl_app (by decide +kernel) (nl_dec _)) (.cons (by decide +kernel) (.one (by decide +kernel)))))))
  · unfold serverControl
    dsimp only
    generalize (if f.oneType && f.parts && decide (c.partDur ≠ 0) then f.holdPct else 0) = hold
    split
    · exact .nil
    · refine .one (nl_app (by decide +kernel) (nl_commas _ ((Clean.append ?_ ?_).append ?_)))
      · split
        · exact .one (by decide +kernel)
        · exact .nil
      · split
        · exact .one (nl_app (by decide +kernel) (nl_secs _))
        · exact .nil
      · split
        · exact .one (nl_app (by decide +kernel) (nl_secs _))
        · exact .nil
  · unfold partInf
    split
    · exact .one (nl_app (by decide +kernel) (nl_secs _))
    · exact .nil
  · unfold skipTag
    split
    · exact .one (nl_app (by decide +kernel) (nl_dec _))
    · exact .nil
  · unfold reports
    intro l hl
    obtain ⟨v, _, hl⟩ := List.mem_flatMap.1 hl
    obtain ⟨r, _, rfl⟩ := List.mem_map.1 hl
    unfold reportLine
    refine nl_app (by decide +kernel) (nl_app (nl_write (n := .index) trivial) (nl_cons (by decide) (nl_app ?_ ?_)))
    · split
      · exact nl_app (by decide +kernel) (nl_dec _)
      · simp
    · split
      · exact nl_app (by decide +kernel) (nl_dec _)
      · simp
  · split
    · exact .one (by decide +kernel)
    · exact .nil

/-! ## The playlist -/

theorem next_eq (c : Chan) (f : Conf) : (match c.periods.getLast? with | some p => nextOf c f p | none => []) = nextParts c f := by
  unfold nextParts pendingAt
  cases c.periods.getLast? with
  | none => rfl
  | some p =>
    dsimp only
    unfold nextOf pending
    cases p.elts.getLast? with
    | none => rfl
    | some e =>
      dsimp only
      by_cases h : e.dur = 0 <;> simp [h]

/-- The state of the client before the segments. -/
def opened (before : Before) (c : Chan) (f : Conf) : St :=
  { head := headOf c f, disc := if c.skipSegs > 0 then before.disc else c.firstIdx - c.skipPer, map := if c.skipSegs > 0 then before.map else none }

theorem run_opened (before : Before) (c : Chan) (f : Conf) (h : Ok c f) (ht : 1000 ≤ c.timescale) :
    run before {} (header c f ++ serverControl c f ++ partInf c f ++ skipTag c) = some (opened before c f) := by
  simp only [run_append]
  rw [run_header before c f h.target h.seq h.first.1 h.first.2, Option.bind_some, run_control before _ c f ht h.target h.until_ h.hold ⟨rfl, rfl, rfl⟩,
    Option.bind_some, run_part_inf before _ c f ht h.partDur rfl, Option.bind_some, run_skip before _ c h.skip.1 rfl]
  rfl

/-- **C106.** A client that reads the playlist finds what there is in the channel. -/
theorem playlist_read (before : Before) (c : Chan) (f : Conf) (h : Ok c f) (hj : Joins before c f) {b : Bytes} (hb : build c f = .ok b) :
    M3u8Spec.read before b = some (expected c f) := by
  obtain ⟨milli, hc⟩ : ∃ milli, c.timescale = 1000 * milli := ⟨c.timescale / 1000, by have := h.scale.1; omega⟩
  have hm : 0 < milli := by
    have := h.scale.2
    omega
  have ht : 1000 ≤ c.timescale := by omega
  have hd : c.timescale / 1000 = milli := by omega
  unfold build at hb
  rw [if_neg (by omega)] at hb
  injection hb with hb
  subst hb
  unfold M3u8Spec.read
  rw [split_unlines _ (clean_lines c f)]
  have hl : ∃ ls, lines c f = str "#EXTM3U" :: ls := by unfold lines header; exact ⟨_, rfl⟩
  obtain ⟨ls, hl⟩ := hl
  rw [hl]
  dsimp only
  rw [if_pos rfl, ← hl]
  unfold lines
  rw [run_append, run_append, run_append, run_opened before c f h ht, Option.bind_some, hd]
  have hstart : ∀ p ps, c.periods = p :: ps → c.skipSegs > 0 → c.lastSkip ≤ p.idx ∧ before.disc + (if p.idx = c.initIdx then 1 else 0) = c.firstIdx ∧
      before.map = mapAt c f c.lastSkip ∧ (p.idx ≠ c.initIdx → mapOf c p.idx = mapOf c c.lastSkip) := by
    intro p ps hp hs
    obtain ⟨p', ps', e, r⟩ := hj hs
    rw [hp] at e
    injection e with e1 e2
    subst e1
    exact r
  have hper := h.pers
  obtain ⟨k, hk, hki⟩ : ∃ k, PersOk k c.periods ∧ ∀ y, k ≤ y → infoGet y (startP c).infos = infoGet y c.infos := by
    by_cases hs : c.skipSegs > 0
    · refine ⟨c.lastSkip, ?_, ?_⟩
      · cases hps : c.periods with
        | nil => trivial
        | cons p ps =>
          rw [hps] at hper
          exact ⟨(hstart p ps hps hs).1, hper.2⟩
      · intro y hy
        unfold startP
        rw [if_pos hs]
        unfold infoGet
        exact infoLoop_again hy _ _ _
    · refine ⟨0, hper, fun y _ => ?_⟩
      unfold startP
      rw [if_neg hs]
  rw [run_periods before c f h hm hc c.periods (startP c) (opened before c f) k c.firstIdx hk (fun _ hp => hp)
    ⟨rfl, rfl, rfl, rfl, ⟨0, Nat.zero_le _, ⟨[], rfl, by simp, by simp⟩⟩, (Its.init _).mono (Nat.zero_le _), hki⟩ ?_, Option.bind_some]
  · obtain ⟨e1, e2, e3, e4, e5, e6⟩ := finals_eq c f c.periods (opened before c f) c.firstIdx k hk rfl
    rw [next_eq] at e4
    unfold reports
    rw [run_reports before c c.reps _ h.reps, Option.bind_some]
    have e7 : hints c f none (c.periods.flatMap fun p => List.range' p.idx (count p)) = hintAll c f := by
      unfold hints; rw [Option.or_none]; rfl
    have fin : ∀ s : St, run before s (if c.endList then [str "#EXT-X-ENDLIST"] else []) = some { s with ended := c.endList || s.ended } := by
      intro s
      cases c.endList with
      | false => rfl
      | true => simp only [if_true, run, line_end, Option.bind_some, Bool.true_or]
    rw [fin, Option.map_some]
    unfold expected
    simp only [e1, e2, e3, e4, e5, e6]
    show some (Playlist.mk (headOf c f) ([] ++ allSegs c f none c.firstIdx (c.seq + c.skipSegs + 0) c.periods) (nextParts c f)
      (hints c f none (c.periods.flatMap fun p => List.range' p.idx (count p))) ([] ++ _) (c.endList || false)) = _
    rw [e7, Bool.or_false, List.nil_append, List.nil_append, Nat.add_zero]
  · intro p ps hps
    have hlt : p.idx < invalid := by
      rw [hps] at hper
      obtain ⟨_, w2, _, w4, _⟩ := written_durs hper
      have h1 := hper.2.2.2.2.2.1
      have h2 : 0 < count p := by
        rw [w2]
        cases hpe : pending p with
        | true => simp
        | false => have := List.length_pos_iff.2 (w4 hpe); omega
      omega
    unfold Starts opened
    by_cases hs : c.skipSegs > 0
    · obtain ⟨a1, a2, a3, a4⟩ := hstart p ps hps hs
      simp only [if_pos hs]
      refine ⟨?_, ?_, ?_⟩
      · rw [← a2]
        by_cases hi : p.idx = c.initIdx <;> simp [hi, startP, hs]
      · intro hh
        have hl : (startP c).lastMap = mapOf c c.lastSkip := by
          unfold startP
          rw [if_pos hs]
          exact infoGet_mapOf h.maps.2 (by omega)
        rw [hl, a3]
        unfold mapAt
        by_cases hm2 : mapOf c p.idx = mapOf c c.lastSkip
        · right; rw [hm2]
        · left
          refine ⟨hm2, .inr (.inr ?_)⟩
          by_cases hi : p.idx = c.initIdx
          · exact hi
          · exact absurd (a4 hi) hm2
      · intro hh
        rw [a3]; unfold mapAt; rw [hh]; rfl
    · simp only [if_neg hs]
      refine ⟨?_, ?_, fun _ => trivial⟩
      · rw [h.skip.2 (by omega)]
        simp [startP, hs]
      · intro _
        left
        refine ⟨?_, .inr (.inl (by omega))⟩
        have hl : (startP c).lastMap = invalid := by unfold startP; rw [if_neg hs]
        have := mapOf_lt h.maps.2 h.maps.1 hlt
        rw [hl]; omega

end Verif.M3u8
