import Verif.M3u8Tags

/-! # Media playlists: tags of the whole playlist, and dates -/

namespace Verif.M3u8

open Verif.Sub (str padded digits)
open Verif.SubSpec (isDigit value)
open Verif.M3u8Spec
open Verif.PName (Bytes Name dec write)

/-! ## Dates -/

theorem field_app {a : Bytes} {k n : Nat} (hl : a.length = k) (hn : num a = some n) (r : Bytes) : field k (a ++ r) = some (n, r) := by
  subst hl
  unfold field
  rw [List.take_left, List.drop_left, if_pos rfl, hn]; rfl

/-- What a time is broken down to. -/
structure TmOk (t : Tm) : Prop where
  year : (dec t.year).length = 4 ∧ t.year < 2 ^ 32
  mon : t.mon < 60
  mday : t.mday < 60
  hour : t.hour < 60
  min : t.min < 60
  sec : t.sec < 60

theorem two {n : Nat} (h : n < 60) (r : Bytes) : field 2 (padded 2 n ++ r) = some (n, r) :=
  field_app (Sub.padded_two n h) (num_padded (by decide) (by omega)) r

theorem three {n : Nat} (h : n < 1000) (r : Bytes) : field 3 (padded 3 n ++ r) = some (n, r) :=
  field_app (Sub.padded_three n h) (num_padded (by decide) (by omega)) r

theorem line_date (b : Before) (s : St) (f : Conf) (ts milli t : Nat) (h : TmOk (f.gm (t / ts))) :
    line b s (dateLine f ts milli t) = some { s with date := some ⟨f.gm (t / ts), t / milli % 1000⟩ } := by
  unfold dateLine
  generalize f.gm (t / ts) = g at h
  rw [show str "#EXT-X-PROGRAM-DATE-TIME:" = str "#EXT-X-PROGRAM-DATE-TIME" ++ [58] by decide +kernel, List.append_assoc, List.singleton_append]
  rw [line_valued b s (t := .date) (by decide +kernel) (by decide +kernel) (by decide +kernel)]
  have hy := field_app h.year.1 (num_dec h.year.2)
  have l : ∀ (x : UInt8) r, lit x (x :: r) = some r := by intro x r; simp [lit]
  have hm : t / milli % 1000 < 1000 := Nat.mod_lt _ (by decide)
  simp only [valued, dateOf, hy, l, two h.mon, two h.mday, two h.hour, two h.min, two h.sec, three hm, Option.bind_eq_bind, Option.bind_some, if_true, Option.map_some]

/-! ## The head -/

theorem line_num (b : Before) (s : St) (n : Nat) {x y : Bytes} {t : Tag} (e : x = y ++ [58]) (h1 : y.head? = some 35) (h2 : 58 ∉ y)
    (h3 : tagOf y = some t) : line b s (x ++ dec n) = valued b s (dec n) t := by
  subst e
  rw [List.append_assoc]
  exact line_valued b s h1 h2 h3

theorem run_header (b : Before) (c : Chan) (f : Conf) (h2 : c.target + c.timescale / 2 < 2 ^ 32) (h3 : c.seq < 2 ^ 32)
    (h4 : c.firstIdx < 2 ^ 32) (h5 : c.skipPer ≤ c.firstIdx) :
    run b {} (header c f) = some { head := { target := some (nearest c.target c.timescale), version := some (version c f), seq := c.seq, independent := true }, disc := c.firstIdx - c.skipPer } := by
  have t1 : targetSecs c = nearest c.target c.timescale := by unfold targetSecs nearest; rw [Nat.mod_eq_of_lt h2]
  have t2 : targetSecs c < 2 ^ 32 := by
    rw [t1]; exact Nat.lt_of_le_of_lt (Nat.div_le_self _ _) h2
  have t3 : version c f < 2 ^ 32 := by unfold version; (repeat' split) <;> decide
  have t4 : dec (c.firstIdx + 2 ^ 32 - c.skipPer) = dec (c.firstIdx - c.skipPer) := by
    unfold dec
    rw [show c.firstIdx + 2 ^ 32 - c.skipPer = (c.firstIdx - c.skipPer) + 2 ^ 32 by omega, Nat.add_mod_right]
  have t5 : c.firstIdx - c.skipPer < 2 ^ 32 := by omega
  unfold header
  rw [t4, t1] at *
  simp only [run, line_bare b _ (n := str "#EXTM3U") (t := .m3u) (by decide +kernel) (by decide +kernel) (by decide +kernel), bare, Option.bind_some,
    line_num b _ _ (show str "#EXT-X-TARGETDURATION:" = str "#EXT-X-TARGETDURATION" ++ [58] by decide +kernel) (t := .target) (by decide +kernel) (by decide +kernel) (by decide +kernel),
    line_num b _ _ (show str "#EXT-X-VERSION:" = str "#EXT-X-VERSION" ++ [58] by decide +kernel) (t := .version) (by decide +kernel) (by decide +kernel) (by decide +kernel),
    line_num b _ _ (show str "#EXT-X-MEDIA-SEQUENCE:" = str "#EXT-X-MEDIA-SEQUENCE" ++ [58] by decide +kernel) (t := .seq) (by decide +kernel) (by decide +kernel) (by decide +kernel),
    line_num b _ _ (show str "#EXT-X-DISCONTINUITY-SEQUENCE:" = str "#EXT-X-DISCONTINUITY-SEQUENCE" ++ [58] by decide +kernel) (t := .discSeq) (by decide +kernel) (by decide +kernel) (by decide +kernel),
    valued, num_dec t2, num_dec t3, num_dec h3, num_dec t5, Option.map_some,
    line_bare b _ (n := str "#EXT-X-INDEPENDENT-SEGMENTS") (t := .independent) (by decide +kernel) (by decide +kernel) (by decide +kernel)]
  have z : ∀ s, line b s (str "#EXT-X-ALLOW-CACHE:YES") = some s := by
    intro s
    have k1 : (cut 58 (str "#EXT-X-ALLOW-CACHE:YES")).1 = str "#EXT-X-ALLOW-CACHE" := by decide +kernel
    have k2 : tagOf (str "#EXT-X-ALLOW-CACHE") = none := by decide +kernel
    have k3 : str "#EXT-X-ALLOW-CACHE:YES" = 35 :: str "EXT-X-ALLOW-CACHE:YES" := by decide +kernel
    rw [k3, line, ← k3, k1, k2]
  rw [z]; rfl

/-! ## Other tags of the playlist -/

theorem run_part_inf (b : Before) (s : St) (c : Chan) (f : Conf) (h1 : 1000 ≤ c.timescale) (h2 : c.partDur < 2 ^ 31) (hs : s.head.partTarget = none) :
    run b s (partInf c f) = some { s with head := { s.head with partTarget := if f.parts && f.oneType && decide (c.partDur ≠ 0) then some (nearest (c.partDur * 1000) c.timescale) else none } } := by
  unfold partInf
  by_cases hc : f.parts = true ∧ f.oneType = true ∧ c.partDur ≠ 0
  · have hx : nearest (c.partDur * 1000) c.timescale < 2 ^ 32 := by
      unfold nearest
      apply Nat.div_lt_of_lt_mul
      have k1 : c.partDur * 1000 ≤ 2 ^ 31 * c.timescale := Nat.mul_le_mul (by omega) h1
      have k2 : c.timescale / 2 < c.timescale := by omega
      omega
    have hv : (c.partDur * 1000 + c.timescale / 2) / c.timescale % 2 ^ 32 = nearest (c.partDur * 1000) c.timescale := Nat.mod_eq_of_lt hx
    rw [if_pos (by simp [hc.1, hc.2.1]; omega), if_pos (by simp [hc.1, hc.2.1, hc.2.2]), hv]
    generalize nearest (c.partDur * 1000) c.timescale = v at hx
    have e : str "#EXT-X-PART-INF:PART-TARGET=" ++ secs v = str "#EXT-X-PART-INF" ++ 58 :: commas ([(str "PART-TARGET", Val.plain (secs v))].map attrText) := by
      rw [show str "#EXT-X-PART-INF:PART-TARGET=" = str "#EXT-X-PART-INF" ++ 58 :: (str "PART-TARGET" ++ [61]) by decide +kernel]
      simp [commas, attrText]
    rw [run, e, line_valued b s (t := .partInf) (by decide +kernel) (by decide +kernel) (by decide +kernel)]
    simp only [valued]
    rw [attrs_read (by simp) (by
      intro a ha
      simp only [List.mem_singleton] at ha
      subst ha
      exact ⟨by decide +kernel, secs_no v (by decide) (by decide), secs_no v (by decide) (by decide)⟩) rfl]
    simp only [Option.bind_some, msOf, find_eq, millis_secs (show v / 1000 < 2 ^ 32 by omega), Option.map_some, run]
  · rw [if_neg (by simp; intro h0 h1; cases h3 : f.oneType; · rfl
                   · exact absurd ⟨h1, h3, by omega⟩ hc), if_neg (by simpa using hc), run, ← hs]

theorem run_skip (b : Before) (s : St) (c : Chan) (h : c.skipSegs < 2 ^ 32) (hs : s.head.skip = 0) :
    run b s (skipTag c) = some { s with head := { s.head with skip := c.skipSegs }, disc := if c.skipSegs > 0 then b.disc else s.disc, map := if c.skipSegs > 0 then b.map else s.map } := by
  unfold skipTag
  by_cases hc : c.skipSegs > 0
  · simp only [if_pos hc]
    have e : str "#EXT-X-SKIP:SKIPPED-SEGMENTS=" ++ dec c.skipSegs = str "#EXT-X-SKIP" ++ 58 :: commas ([(str "SKIPPED-SEGMENTS", Val.plain (dec c.skipSegs))].map attrText) := by
      rw [show str "#EXT-X-SKIP:SKIPPED-SEGMENTS=" = str "#EXT-X-SKIP" ++ 58 :: (str "SKIPPED-SEGMENTS" ++ [61]) by decide +kernel]
      simp [commas, attrText]
    rw [run, e, line_valued b s (t := .skip) (by decide +kernel) (by decide +kernel) (by decide +kernel)]
    simp only [valued]
    rw [attrs_read (by simp) (by
      intro a ha
      simp only [List.mem_singleton] at ha
      subst ha
      exact ⟨by decide +kernel, dec_no _ (by decide), dec_no _ (by decide)⟩) rfl]
    simp only [Option.bind_some, numOf, find_eq, num_dec h, Option.map_some, run]
  · simp only [if_neg hc, run]
    rw [show c.skipSegs = 0 by omega, ← hs]

/-- The attributes of the server control. -/
def controlAttrs (block : Bool) (u h : Option Nat) : List (Bytes × Val) :=
  (if block then [(str "CAN-BLOCK-RELOAD", .plain (str "YES"))] else []) ++
  (match u with | some v => [(str "CAN-SKIP-UNTIL", .plain (secs v))] | none => []) ++
  (match h with | some v => [(str "PART-HOLD-BACK", .plain (secs v))] | none => [])

theorem line_control (b : Before) (s : St) (block : Bool) (u h : Option Nat) (hu : ∀ v ∈ u, v / 1000 < 2 ^ 32) (hh : ∀ v ∈ h, v / 1000 < 2 ^ 32)
    (hn : controlAttrs block u h ≠ []) :
    line b s (str "#EXT-X-SERVER-CONTROL:" ++ commas ((controlAttrs block u h).map attrText)) =
      some { s with head := { s.head with block := block, skipUntil := u, holdBack := h } } := by
  rw [show str "#EXT-X-SERVER-CONTROL:" = str "#EXT-X-SERVER-CONTROL" ++ [58] by decide +kernel, List.append_assoc, List.singleton_append]
  rw [line_valued b s (t := .control) (by decide +kernel) (by decide +kernel) (by decide +kernel)]
  simp only [valued]
  rw [attrs_read hn (by
    intro a ha
    unfold controlAttrs at ha
    simp only [List.mem_append] at ha
    rcases ha with (ha | ha) | ha
    · split at ha
      · simp only [List.mem_singleton] at ha; subst ha
        exact ⟨by decide +kernel, by decide +kernel, by decide +kernel⟩
      · cases ha
    · split at ha
      · simp only [List.mem_singleton] at ha; subst ha
        exact ⟨by decide +kernel, secs_no _ (by decide) (by decide), secs_no _ (by decide) (by decide)⟩
      · cases ha
    · split at ha
      · simp only [List.mem_singleton] at ha; subst ha
        exact ⟨by decide +kernel, secs_no _ (by decide) (by decide), secs_no _ (by decide) (by decide)⟩
      · cases ha) rfl]
  have n1 : str "CAN-BLOCK-RELOAD" ≠ str "CAN-SKIP-UNTIL" := by decide +kernel
  have n2 : str "CAN-BLOCK-RELOAD" ≠ str "PART-HOLD-BACK" := by decide +kernel
  have n3 : str "CAN-SKIP-UNTIL" ≠ str "PART-HOLD-BACK" := by decide +kernel
  have mu : ∀ v, u = some v → millis (secs v) = some v := fun v hv => millis_secs (hu v hv)
  have mh : ∀ v, h = some v → millis (secs v) = some v := fun v hv => millis_secs (hh v hv)
  cases block <;> cases u <;> cases h <;>
    simp_all [controlAttrs, msOf, find_eq, find_ne n1, find_ne n2, find_ne n3, find_ne n1.symm, find_ne n2.symm, find_ne n3.symm, find_nil]

theorem run_control (b : Before) (s : St) (c : Chan) (f : Conf) (h1 : 1000 ≤ c.timescale) (h2 : c.target + c.timescale / 2 < 2 ^ 32)
    (h3 : nearest c.target c.timescale * f.skipPct * 10 < 2 ^ 41) (h4 : c.partDur * f.holdPct * 10 < 2 ^ 51)
    (hs : s.head.block = false ∧ s.head.skipUntil = none ∧ s.head.holdBack = none) :
    run b s (serverControl c f) = some { s with head := { s.head with block := f.oneType && !c.endList && f.block, skipUntil := if f.skipPct = 0 then none else some (nearest c.target c.timescale * 1000 * f.skipPct / 100), holdBack := if (f.parts && f.oneType && decide (c.partDur ≠ 0)) && decide (f.holdPct ≠ 0) then some (c.partDur * 1000 * f.holdPct / 100 / c.timescale) else none } } := by
  have t1 : targetSecs c = nearest c.target c.timescale := by unfold targetSecs nearest; rw [Nat.mod_eq_of_lt h2]
  have u1 : targetSecs c * f.skipPct * 10 % 2 ^ 64 = nearest c.target c.timescale * 1000 * f.skipPct / 100 := by
    rw [t1, Nat.mod_eq_of_lt (by omega), show nearest c.target c.timescale * 1000 * f.skipPct = nearest c.target c.timescale * f.skipPct * 10 * 100 by
      rw [Nat.mul_right_comm]; omega, Nat.mul_div_cancel _ (by decide)]
  have u2 : nearest c.target c.timescale * 1000 * f.skipPct / 100 / 1000 < 2 ^ 32 := by
    rw [← u1, t1, Nat.mod_eq_of_lt (by omega)]; omega
  have v1 : c.partDur * f.holdPct * 10 % 2 ^ 64 / c.timescale = c.partDur * 1000 * f.holdPct / 100 / c.timescale := by
    rw [Nat.mod_eq_of_lt (by omega), show c.partDur * 1000 * f.holdPct = c.partDur * f.holdPct * 10 * 100 by
      rw [Nat.mul_right_comm]; omega, Nat.mul_div_cancel _ (by decide)]
  have v2 : c.partDur * 1000 * f.holdPct / 100 / c.timescale / 1000 < 2 ^ 32 := by
    rw [← v1, Nat.mod_eq_of_lt (by omega)]
    have : c.partDur * f.holdPct * 10 / c.timescale ≤ c.partDur * f.holdPct * 10 / 1000 := Nat.div_le_div_left h1 (by decide)
    omega
  unfold serverControl
  simp only [u1]
  obtain ⟨u, hu⟩ : ∃ u, u = nearest c.target c.timescale * 1000 * f.skipPct / 100 := ⟨_, rfl⟩
  rw [← hu] at u2 ⊢
  generalize hb : (f.oneType && !c.endList && f.block) = block
  have hh : (f.parts && f.oneType && decide (c.partDur ≠ 0)) = (f.oneType && f.parts && decide (c.partDur ≠ 0)) := by
    rw [Bool.and_comm f.parts]
  rw [hh]
  generalize hl : (f.oneType && f.parts && decide (c.partDur ≠ 0)) = low
  have key : ∀ h : Option Nat, (∀ v ∈ h, v / 1000 < 2 ^ 32) →
      run b s (if !block && decide (f.skipPct = 0) && decide (h = none) then [] else
        [str "#EXT-X-SERVER-CONTROL:" ++ commas ((controlAttrs block (if f.skipPct = 0 then none else some u) h).map attrText)]) =
      some { s with head := { s.head with block := block, skipUntil := if f.skipPct = 0 then none else some u, holdBack := h } } := by
    intro h hv
    split
    · rename_i hc
      simp at hc
      obtain ⟨⟨rfl, hz⟩, rfl⟩ := hc
      rw [run, hz, if_pos rfl]
      obtain ⟨⟨_, _, _, _, _, _, _, _, _⟩, _, _, _, _, _, _, _, _, _, _, _⟩ := s
      simp only at hs
      obtain ⟨rfl, rfl, rfl⟩ := hs
      rfl
    · rename_i hc
      rw [run, line_control b s block _ h (by intro v hv; split at hv <;> simp at hv; subst hv; exact u2) hv (by
        intro he
        apply hc
        unfold controlAttrs at he
        cases block <;> cases h <;> by_cases hz : f.skipPct = 0 <;> simp_all)]
      rfl
  have e1 : str "CAN-BLOCK-RELOAD=YES" = attrText (str "CAN-BLOCK-RELOAD", .plain (str "YES")) := by decide +kernel
  have e2 : ∀ v, str "CAN-SKIP-UNTIL=" ++ secs v = attrText (str "CAN-SKIP-UNTIL", .plain (secs v)) := by
    intro v; rw [show str "CAN-SKIP-UNTIL=" = str "CAN-SKIP-UNTIL" ++ [61] by decide +kernel, List.append_assoc]; rfl
  have e3 : ∀ v, str "PART-HOLD-BACK=" ++ secs v = attrText (str "PART-HOLD-BACK", .plain (secs v)) := by
    intro v; rw [show str "PART-HOLD-BACK=" = str "PART-HOLD-BACK" ++ [61] by decide +kernel, List.append_assoc]; rfl
  rw [e1, e2, e3]
  cases low with
  | false =>
    refine Eq.trans ?_ ((key none (by simp)).trans (by simp))
    cases block <;> by_cases hz : f.skipPct = 0 <;> simp [hz, controlAttrs]
  | true =>
    by_cases hz2 : f.holdPct = 0
    · simp only [hz2]
      refine Eq.trans ?_ ((key none (by simp)).trans (by simp))
      cases block <;> by_cases hz : f.skipPct = 0 <;> simp [hz, controlAttrs]
    · simp only [if_true, v1]
      refine Eq.trans ?_ ((key (some _) (by intro v hv; simp at hv; subst hv; exact v2)).trans (by simp [hz2]))
      cases block <;> by_cases hz : f.skipPct = 0 <;> simp [hz, hz2, controlAttrs]

theorem line_report (b : Before) (s : St) (c : Chan) (id : Bytes) (r : Rep) (h1 : r.seq < 2 ^ 32) (h2 : r.part < 2 ^ 32) :
    line b s (reportLine c id r) = some { s with reports := s.reports ++ [reportOf c id r] } := by
  have e : reportLine c id r = str "#EXT-X-RENDITION-REPORT" ++ 58 :: commas (((str "URI", Val.quoted (write id (2 ^ r.type) .index)) ::
      ((if r.seq ≠ c.rrSeq then [(str "LAST-MSN", Val.plain (dec r.seq))] else []) ++
       (if r.part ≠ c.rrPart then [(str "LAST-PART", Val.plain (dec r.part))] else []))).map attrText) := by
    unfold reportLine
    rw [show str "#EXT-X-RENDITION-REPORT:URI=\"" = str "#EXT-X-RENDITION-REPORT" ++ 58 :: (str "URI" ++ [61, 34]) by decide +kernel,
      show str ",LAST-MSN=" = 44 :: (str "LAST-MSN" ++ [61]) by decide +kernel,
      show str ",LAST-PART=" = 44 :: (str "LAST-PART" ++ [61]) by decide +kernel]
    by_cases q1 : r.seq = c.rrSeq <;> by_cases q2 : r.part = c.rrPart <;> simp [q1, q2, commas, attrText]
  rw [e, line_valued b s (t := .report) (by decide +kernel) (by decide +kernel) (by decide +kernel)]
  simp only [valued]
  rw [attrs_read (by simp) (by
    intro a ha
    simp only [List.mem_cons, List.mem_append] at ha
    rcases ha with rfl | ha | ha
    · exact ⟨no61.1, write_no (n := .index) trivial (by decide)⟩
    · split at ha
      · simp only [List.mem_singleton] at ha; subst ha
        exact ⟨by decide +kernel, dec_no _ (by decide), dec_no _ (by decide)⟩
      · cases ha
    · split at ha
      · simp only [List.mem_singleton] at ha; subst ha
        exact ⟨by decide +kernel, dec_no _ (by decide), dec_no _ (by decide)⟩
      · cases ha) rfl]
  have n1 : str "URI" ≠ str "LAST-MSN" := by decide +kernel
  have n2 : str "URI" ≠ str "LAST-PART" := by decide +kernel
  have n3 : str "LAST-MSN" ≠ str "LAST-PART" := by decide +kernel
  unfold reportOf
  by_cases q1 : r.seq = c.rrSeq <;> by_cases q2 : r.part = c.rrPart <;>
    simp [q1, q2, strOf, numOf, find_eq, find_ne n1, find_ne n2, find_ne n3, find_ne n3.symm, find_nil, num_dec h1, num_dec h2]

theorem run_reports_v (b : Before) (c : Chan) (id : Bytes) : ∀ (l : List Rep) (s : St), (∀ r ∈ l, r.seq < 2 ^ 32 ∧ r.part < 2 ^ 32) →
    run b s (l.map (reportLine c id)) = some { s with reports := s.reports ++ l.map (reportOf c id) }
  | [], s, _ => by simp [run]
  | r :: l, s, h => by
    rw [List.map_cons, run, line_report b s c id r (h r (by simp)).1 (h r (by simp)).2, Option.bind_some, run_reports_v b c id l _ (fun x hx => h x (by simp [hx]))]
    simp

theorem run_reports (b : Before) (c : Chan) : ∀ (l : List (Bytes × List Rep)) (s : St), (∀ v ∈ l, ∀ r ∈ v.2, r.seq < 2 ^ 32 ∧ r.part < 2 ^ 32) →
    run b s (l.flatMap fun v => v.2.map (reportLine c v.1)) = some { s with reports := s.reports ++ l.flatMap fun v => v.2.map (reportOf c v.1) }
  | [], s, _ => by simp [run]
  | v :: l, s, h => by
    rw [List.flatMap_cons, run_append, run_reports_v b c v.1 v.2 s (h v (by simp)), Option.bind_some, run_reports b c l _ (fun x hx => h x (by simp [hx]))]
    simp

theorem line_end (b : Before) (s : St) : line b s (str "#EXT-X-ENDLIST") = some { s with ended := true } := by
  rw [line_bare b s (t := .ended) (by decide +kernel) (by decide +kernel) (by decide +kernel)]; rfl

end Verif.M3u8
