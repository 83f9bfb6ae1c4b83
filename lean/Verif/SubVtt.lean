import Verif.SubTrim
import Verif.SubTime
import Verif.SubBox

/-! # WebVTT segments read back -/

namespace Verif.Sub

open SubSpec (Cue cues lines hasArrow readTiming readLines readVtt Vtt Sample ms CueOk shown)

/-- Not the end of a line. -/
def Inline (b : Bytes) : Prop := ∀ c ∈ b, c ≠ 10 ∧ c ≠ 13

theorem inline_nil : Inline [] := by intro c hc; cases hc

theorem lines_ne (b : Bytes) : lines b ≠ [] := by
  fun_cases lines b <;> simp_all <;> (split <;> simp)

theorem lines_cons_inline {c : UInt8} (h : c ≠ 10 ∧ c ≠ 13) (b : Bytes) :
    ∃ l ls, lines b = l :: ls ∧ lines (c :: b) = (c :: l) :: ls := by
  cases b with
  | nil => exact ⟨[], [], rfl, by simp [lines, h.1, h.2]⟩
  | cons d b =>
    cases hl : lines (d :: b) with
    | nil => exact absurd hl (lines_ne _)
    | cons l ls =>
      refine ⟨l, ls, rfl, ?_⟩
      rw [lines, if_neg (by simp [h.2]), if_neg (by simp [h.1, h.2]), hl]

theorem lines_lf (b : Bytes) : lines (10 :: b) = [] :: lines b := by
  cases b with
  | nil => decide
  | cons d b => rw [lines, if_neg (by intro h; exact absurd h.1 (by decide)), if_pos (by decide)]

theorem lines_crlf (b : Bytes) : lines (13 :: 10 :: b) = [] :: lines b := by
  rw [lines, if_pos (by decide)]

theorem lines_cr {d : UInt8} (h : d ≠ 10) (b : Bytes) : lines (13 :: d :: b) = [] :: lines (d :: b) := by
  rw [lines, if_neg (by simp [h]), if_pos (by decide)]

theorem lines_inline {a : Bytes} (h : Inline a) : lines a = [a] := by
  induction a with
  | nil => rfl
  | cons c a ih =>
    obtain ⟨l, ls, h1, h2⟩ := lines_cons_inline (h c (by simp)) a
    rw [ih (fun x hx => h x (by simp [hx]))] at h1
    injection h1 with h1 h3
    rw [h2, ← h1, ← h3]

/-- A text followed by CR LF. -/
theorem lines_append_crlf (h r : Bytes) : lines (h ++ 13 :: 10 :: r) = lines h ++ lines r := by
  induction hn : h.length using Nat.strongRecOn generalizing h with
  | ind n ih =>
    subst hn
    match h with
    | [] => rw [List.nil_append, lines_crlf]; rfl
    | [c] =>
      by_cases h1 : c = 10
      · subst h1; rw [List.cons_append, lines_lf, List.nil_append, lines_crlf, lines_lf]; rfl
      · by_cases h2 : c = 13
        · subst h2; rw [List.cons_append, List.nil_append, lines_cr (by decide), lines_crlf]; rfl
        · rw [List.cons_append, List.nil_append]
          obtain ⟨l, ls, e1, e2⟩ := lines_cons_inline ⟨h1, h2⟩ (13 :: 10 :: r)
          rw [lines_crlf] at e1
          injection e1 with e1 e3
          rw [e2, ← e1, ← e3]
          simp [lines, h1, h2]
    | c :: d :: b =>
      by_cases h1 : c = 10
      · subst h1
        rw [List.cons_append, lines_lf, lines_lf, ih (d :: b).length (by simp) (d :: b) rfl]; rfl
      · by_cases h2 : c = 13
        · subst h2
          by_cases h3 : d = 10
          · subst h3
            rw [List.cons_append, List.cons_append, lines_crlf, lines_crlf, ih b.length (by simp; omega) b rfl]; rfl
          · rw [List.cons_append, List.cons_append, lines_cr h3, lines_cr h3, ← List.cons_append, ih (d :: b).length (by simp) (d :: b) rfl]; rfl
        · have hi := ih (d :: b).length (by simp) (d :: b) rfl
          obtain ⟨l, ls, e1, e2⟩ := lines_cons_inline ⟨h1, h2⟩ (d :: b)
          obtain ⟨l', ls', e3, e4⟩ := lines_cons_inline ⟨h1, h2⟩ ((d :: b) ++ 13 :: 10 :: r)
          rw [List.cons_append, e4, e2]
          rw [hi, e1] at e3
          injection e3 with e3 e5
          rw [← e3, ← e5]; rfl

/-- A text that has no empty line, followed by LF. -/
theorem lines_append_lf (h r : Bytes) (hne : ∀ l ∈ lines h, l ≠ []) : lines (h ++ 10 :: r) = lines h ++ lines r := by
  induction hn : h.length using Nat.strongRecOn generalizing h with
  | ind n ih =>
    subst hn
    match h with
    | [] => rw [List.nil_append, lines_lf]; rfl
    | [c] =>
      by_cases h1 : c = 10
      · subst h1; exact absurd rfl (hne [] (by decide))
      · by_cases h2 : c = 13
        · subst h2; exact absurd rfl (hne [] (by decide))
        · rw [List.cons_append, List.nil_append]
          obtain ⟨l, ls, e1, e2⟩ := lines_cons_inline ⟨h1, h2⟩ (10 :: r)
          rw [lines_lf] at e1
          injection e1 with e1 e3
          rw [e2, ← e1, ← e3]
          simp [lines, h1, h2]
    | c :: d :: b =>
      by_cases h1 : c = 10
      · subst h1
        rw [lines_lf] at hne
        exact absurd rfl (hne [] (by simp))
      · by_cases h2 : c = 13
        · subst h2
          exfalso
          by_cases h3 : d = 10
          · subst h3; rw [lines_crlf] at hne; exact absurd rfl (hne [] (by simp))
          · rw [lines_cr h3] at hne; exact absurd rfl (hne [] (by simp))
        · obtain ⟨l, ls, e1, e2⟩ := lines_cons_inline ⟨h1, h2⟩ (d :: b)
          obtain ⟨l', ls', e3, e4⟩ := lines_cons_inline ⟨h1, h2⟩ ((d :: b) ++ 10 :: r)
          have hi : lines ((d :: b) ++ 10 :: r) = (l :: ls) ++ lines r ∨ l = [] := by
            by_cases hl : l = []
            · exact .inr hl
            · left
              rw [← e1]
              refine ih (d :: b).length (by simp) (d :: b) ?_ rfl
              rw [e1]
              intro x hx
              rcases List.mem_cons.mp hx with hx | hx
              · rw [hx]; exact hl
              · exact hne x (by rw [e2]; simp [hx])
          rw [List.cons_append, e4, e2]
          rcases hi with hi | hi
          · rw [hi] at e3
            injection e3 with e3 e5
            rw [← e3, ← e5]; rfl
          · -- the rest starts with the end of a line
            subst hi
            have hend : d = 10 ∨ d = 13 := by
              apply Classical.byContradiction
              intro hc
              obtain ⟨l2, ls2, _, e6⟩ := lines_cons_inline (c := d) ⟨fun h => hc (.inl h), fun h => hc (.inr h)⟩ b
              rw [e1] at e6
              cases e6
            rcases hend with hd | hd
            · subst hd
              rw [lines_lf] at e1
              injection e1 with _ e1
              rw [List.cons_append, lines_lf] at e3
              injection e3 with e3 e5
              have hb : lines (b ++ 10 :: r) = lines b ++ lines r := by
                refine ih b.length (by simp; omega) b ?_ rfl
                rw [e1]; intro x hx; exact hne x (by rw [e2]; simp [hx])
              rw [← e3, ← e5, hb, e1]; rfl
            · subst hd
              cases b with
              | nil =>
                exfalso
                have : lines [13] = [[], []] := by decide
                rw [this] at e1
                injection e1 with _ e1
                exact hne [] (by rw [e2, ← e1]; simp) rfl
              | cons f b =>
                by_cases hf : f = 10
                · subst hf
                  rw [lines_crlf] at e1
                  injection e1 with _ e1
                  rw [List.cons_append, List.cons_append, lines_crlf] at e3
                  injection e3 with e3 e5
                  have hb : lines (b ++ 10 :: r) = lines b ++ lines r := by
                    refine ih b.length (by simp; omega) b ?_ rfl
                    rw [e1]; intro x hx; exact hne x (by rw [e2]; simp [hx])
                  rw [← e3, ← e5, hb, e1]; rfl
                · rw [lines_cr hf] at e1
                  injection e1 with _ e1
                  rw [List.cons_append, List.cons_append, lines_cr hf] at e3
                  injection e3 with e3 e5
                  have hb : lines ((f :: b) ++ 10 :: r) = lines (f :: b) ++ lines r := by
                    refine ih (f :: b).length (by simp) (f :: b) ?_ rfl
                    rw [e1]; intro x hx; exact hne x (by rw [e2]; simp [hx])
                  rw [← List.cons_append, hb, e1] at e5
                  rw [← e3, ← e5]; rfl

theorem hasArrow_mid (a b : Bytes) : hasArrow (a ++ (str "-->" ++ b)) = true := by
  have hs : str "-->" = [45, 45, 62] := by decide
  have hs' : SubSpec.str "-->" = [45, 45, 62] := by decide
  induction a with
  | nil => rw [List.nil_append, hs]; simp [hasArrow, hs']
  | cons c a ih => rw [List.cons_append, hasArrow, ih, Bool.or_true]

/-! ## Cues -/

/-- The line of times of a cue. -/
def timing (timescale : Nat) (cs ce : Int) (s : Bytes) : Bytes :=
  stamp cs timescale ++ str " --> " ++ stamp ce timescale ++ (if 0 < s.length then str " " ++ s else [])

theorem digit_inline : ∀ c : UInt8, SubSpec.isDigit c = true → c ≠ 10 ∧ c ≠ 13 := by
  intro c h
  constructor <;> (intro hc; subst hc; revert h; decide)

theorem stamp_inline (t : Int) (ts : Nat) : Inline (stamp t ts) := by
  intro c hc
  rcases stamp_bytes t ts c hc with h | h | h
  · exact digit_inline c h
  · subst h; decide
  · subst h; decide

theorem timing_inline {ts : Nat} {cs ce : Int} {s : Bytes} (h : ∀ x ∈ s, x ≠ 10 ∧ x ≠ 13) : Inline (timing ts cs ce s) := by
  intro c hc
  unfold timing at hc
  rw [List.mem_append, List.mem_append, List.mem_append] at hc
  rcases hc with ((hc | hc) | hc) | hc
  · exact stamp_inline _ _ c hc
  · revert c; decide
  · exact stamp_inline _ _ c hc
  · split at hc
    · rcases List.mem_append.mp hc with hc | hc
      · rw [show str " " = [32] from by decide, List.mem_singleton] at hc
        subst hc; decide
      · exact h c hc
    · simp at hc

theorem readTiming_timing {ts : Nat} {cs ce : Int} (h1 : millis cs ts / 3600000 < 2 ^ 32) (h2 : millis ce ts / 3600000 < 2 ^ 32) (s : Bytes) :
    readTiming (timing ts cs ce s) = some ⟨millis cs ts, millis ce ts, s, []⟩ := by
  unfold timing
  rw [List.append_assoc, List.append_assoc]
  unfold readTiming
  rw [readTime_stamp cs ts h1]
  simp only [Option.bind_eq_bind, Option.bind_some]
  rw [show SubSpec.str " --> " = str " --> " from rfl, after_append]
  simp only [Option.bind_some]
  rw [readTime_stamp ce ts h2]
  simp only [Option.bind_some]
  by_cases hs : 0 < s.length
  · rw [if_pos hs, show str " " = [32] from by decide]
    simp
  · rw [if_neg hs]
    have : s = [] := by cases s with | nil => rfl | cons => simp at hs
    rw [this]

theorem readLines_text (T R : List Bytes) (hT : ∀ l ∈ T, l ≠ [] ∧ hasArrow l = false) (c : Vtt) :
    readLines (some c) (T ++ [] :: R) = { c with text := c.text ++ T } :: readLines none R := by
  induction T generalizing c with
  | nil =>
    rw [List.nil_append, readLines, if_neg (by decide), if_pos rfl, List.append_nil]; rfl
  | cons l T ih =>
    have hl := hT l (by simp)
    rw [List.cons_append, readLines, if_neg (by simp [hl.2]), if_neg hl.1]
    simp only [Option.map_some]
    rw [ih (fun x hx => hT x (by simp [hx]))]
    simp

theorem readLines_head (H R : List Bytes) (hH : ∀ l ∈ H, hasArrow l = false) : readLines none (H ++ R) = readLines none R := by
  induction H with
  | nil => rfl
  | cons l H ih =>
    rw [List.cons_append, readLines, if_neg (by simp [hH l (by simp)])]
    have := ih (fun x hx => hH x (by simp [hx]))
    split
    · simpa using this
    · simpa using this

theorem read_vttCue {ts : Nat} {cs ce : Int} (h1 : millis cs ts / 3600000 < 2 ^ 32) (h2 : millis ce ts / 3600000 < 2 ^ 32)
    {c : Bytes × Bytes} (hc : CueOk c) (r : Bytes) :
    readVtt (vttCue ts cs ce c ++ r) = ⟨millis cs ts, millis ce ts, c.2, lines c.1⟩ :: readVtt r := by
  have e : vttCue ts cs ce c ++ r = timing ts cs ce c.2 ++ (10 :: (c.1 ++ 10 :: (10 :: r))) := by
    unfold vttCue timing; simp
  have hin := timing_inline (ts := ts) (cs := cs) (ce := ce) hc.settings
  unfold readVtt
  rw [e, lines_append_lf _ _ (by
    rw [lines_inline hin]
    intro l hl
    rw [List.mem_singleton] at hl
    subst hl
    unfold timing
    have : str " --> " ≠ [] := by decide
    simp [this]), lines_inline hin, lines_append_lf _ _ (fun l hl => (hc.text l hl).1), lines_lf]
  rw [List.singleton_append, readLines, if_pos, readTiming_timing h1 h2, readLines_text _ _ hc.text]
  · simp
  · unfold timing
    have e2 : stamp cs ts ++ str " --> " ++ stamp ce ts ++ (if 0 < c.2.length then str " " ++ c.2 else []) =
        (stamp cs ts ++ str " ") ++ (str "-->" ++ (str " " ++ stamp ce ts ++ (if 0 < c.2.length then str " " ++ c.2 else []))) := by
      have : str " --> " = str " " ++ str "-->" ++ str " " := by decide
      rw [this]; simp only [List.append_assoc]
    rw [e2]
    exact hasArrow_mid _ _

theorem cues_shift (fs : List Frame) (t d : Int) :
    cues (t + d) (fs.map Frame.spec) = (cues t (fs.map Frame.spec)).map fun c => ⟨c.start + d, c.stop + d, c.data⟩ := by
  induction fs generalizing t with
  | nil => rfl
  | cons f fs ih =>
    simp only [List.map_cons, Frame.spec, cues, List.map_cons]
    rw [← ih, show t + d + (f.dur : Int) = t + f.dur + d by omega]
    congr 2; omega

theorem cues_data (fs : List Frame) (t : Int) : ∀ c ∈ cues t (fs.map Frame.spec), ∃ f ∈ fs, f.data = c.data := by
  induction fs generalizing t with
  | nil => intro c hc; cases hc
  | cons f fs ih =>
    intro c hc
    simp only [List.map_cons, Frame.spec, cues, List.mem_cons] at hc
    rcases hc with hc | hc
    · exact ⟨f, by simp, by rw [hc]⟩
    · obtain ⟨g, hg, e⟩ := ih _ c hc
      exact ⟨g, by simp [hg], e⟩

theorem read_vttCues {ts : Nat} (sample : Bytes → Option (Bytes × Bytes)) (fs : List Frame) (cur : Int)
    (hs : ∀ f ∈ fs, Sample f.data (sample f.data)) (hok : ∀ f ∈ fs, ∀ x ∈ sample f.data, CueOk x)
    (ht : ∀ c ∈ cues cur (fs.map Frame.spec), 0 ≤ c.start ∧ c.start ≤ c.stop ∧ c.stop * 1000 + ts / 2 < 2 ^ 53) :
    readVtt (vttCues ts cur fs) = (cues cur (fs.map Frame.spec)).filterMap fun c => (sample c.data).map (shown ts 0 c) := by
  induction fs generalizing cur with
  | nil => rfl
  | cons f fs ih =>
    have hi := ih (cur + f.dur) (fun g hg => hs g (by simp [hg])) (fun g hg => hok g (by simp [hg])) (fun c hc => ht c (by
      simp only [List.map_cons, Frame.spec, cues, List.mem_cons]; exact .inr hc))
    rw [vttCues, cueOf_sample (hs f (by simp))]
    simp only [List.map_cons, Frame.spec, cues, List.filterMap_cons]
    cases hx : sample f.data with
    | none => simp only [List.nil_append, Option.map_none]; exact hi
    | some x =>
      simp only [Option.map_some]
      obtain ⟨t1, t2, t3⟩ := ht ⟨cur, cur + f.delay, f.data⟩ (by simp [Frame.spec, cues])
      simp only at t1 t2 t3
      rw [read_vttCue (millis_hours t1 (by omega)) (millis_hours (by omega) t3) (hok f (by simp) x (by simp [hx]))]
      rw [hi, millis_ms t1 (by omega), millis_ms (by omega) (by omega)]
      simp [shown]

theorem splitFirst_spec (h : Bytes) : Inline (splitFirst h).1 ∧
    (lines h = (splitFirst h).1 :: lines (splitFirst h).2 ∨ (lines h = [(splitFirst h).1] ∧ (splitFirst h).2 = [])) := by
  induction h with
  | nil => exact ⟨inline_nil, .inr ⟨rfl, rfl⟩⟩
  | cons c b ih =>
    rw [splitFirst]
    by_cases h1 : c = 13 ∧ b.head? = some 10
    · rw [if_pos h1]
      refine ⟨inline_nil, .inl ?_⟩
      obtain ⟨rfl, h2⟩ := h1
      cases b with
      | nil => cases h2
      | cons d b =>
        simp only [List.head?_cons, Option.some.injEq] at h2
        subst h2
        rw [lines_crlf]; rfl
    · rw [if_neg h1]
      by_cases h2 : c = 13 ∨ c = 10
      · rw [if_pos h2]
        refine ⟨inline_nil, .inl ?_⟩
        rcases h2 with h2 | h2
        · subst h2
          cases b with
          | nil => decide
          | cons d b => exact lines_cr (by intro hd; apply h1; simp [hd]) b
        · subst h2; exact lines_lf b
      · rw [if_neg h2]
        have hc : c ≠ 10 ∧ c ≠ 13 := ⟨fun h => h2 (.inr h), fun h => h2 (.inl h)⟩
        refine ⟨?_, ?_⟩
        · intro x hx
          rcases List.mem_cons.mp hx with hx | hx
          · rw [hx]; exact hc
          · exact ih.1 x hx
        · obtain ⟨l, ls, e1, e2⟩ := lines_cons_inline hc b
          rcases ih.2 with h3 | ⟨h3, h4⟩
          · rw [h3] at e1; injection e1 with e1 e4; left; simp only; rw [e2, e1, e4]
          · rw [h3] at e1; injection e1 with e1 e4; right; simp only; rw [e2, e1, ← e4]; exact ⟨rfl, h4⟩

theorem read_vttBytes (t : Track) (hh : ∀ l ∈ lines t.header, hasArrow l = false) :
    readVtt (vttBytes t) = readVtt (vttCues t.timescale (t.start - baseTime t.start) t.frames) ∧
      (lines (vttBytes t)).head? = (lines t.header).head? ∧
      (lines (vttBytes t))[1]? = some (SubSpec.str "X-TIMESTAMP-MAP=MPEGTS:0,LOCAL:00:00:00.000") := by
  obtain ⟨h1, h2⟩ := splitFirst_spec t.header
  have hmi : Inline (str "X-TIMESTAMP-MAP=MPEGTS:0,LOCAL:00:00:00.000") := by unfold Inline; decide
  have hma : hasArrow (str "X-TIMESTAMP-MAP=MPEGTS:0,LOCAL:00:00:00.000") = false := by decide
  have e : lines (vttBytes t) = (splitFirst t.header).1 :: str "X-TIMESTAMP-MAP=MPEGTS:0,LOCAL:00:00:00.000" ::
      (lines (splitFirst t.header).2 ++ lines (vttCues t.timescale (t.start - baseTime t.start) t.frames)) := by
    unfold vttBytes stampMap
    rw [show (splitFirst t.header).1 ++ ([13, 10] ++ str "X-TIMESTAMP-MAP=MPEGTS:0,LOCAL:00:00:00.000" ++ [13, 10]) ++ (splitFirst t.header).2 ++ [13, 10] ++
        vttCues t.timescale (t.start - baseTime t.start) t.frames = (splitFirst t.header).1 ++ 13 :: 10 ::
        (str "X-TIMESTAMP-MAP=MPEGTS:0,LOCAL:00:00:00.000" ++ 13 :: 10 :: ((splitFirst t.header).2 ++ 13 :: 10 ::
        vttCues t.timescale (t.start - baseTime t.start) t.frames)) by simp only [List.append_assoc, List.cons_append, List.nil_append]]
    rw [lines_append_crlf, lines_append_crlf, lines_append_crlf, lines_inline h1, lines_inline hmi]
    rfl
  have hfirst : (lines t.header).head? = some (splitFirst t.header).1 := by
    rcases h2 with h2 | ⟨h2, _⟩ <;> rw [h2] <;> rfl
  refine ⟨?_, ?_, ?_⟩
  · unfold readVtt
    rw [e, ← List.cons_append, ← List.cons_append, readLines_head]
    intro l hl
    rcases List.mem_cons.mp hl with hl | hl
    · rw [hl]; exact hh _ (List.mem_of_mem_head? hfirst)
    · rcases List.mem_cons.mp hl with hl | hl
      · rw [hl]; exact hma
      · rcases h2 with h2 | ⟨_, h2⟩
        · exact hh l (by rw [h2]; simp [hl])
        · rw [h2] at hl
          have : lines ([] : Bytes) = [[]] := rfl
          rw [this, List.mem_singleton] at hl
          rw [hl]; rfl
  · rw [e, hfirst]; rfl
  · rw [e]; rfl

theorem baseTime_spec {start : Int} (h0 : -2 ^ 63 ≤ start) (h1 : start < 2 ^ 63) :
    ∃ k : Int, baseTime start = k * 2 ^ 33 ∧ 0 ≤ start - baseTime start ∧ start - baseTime start < 2 ^ 33 := by
  unfold baseTime
  simp only
  by_cases h : 0 ≤ start
  · rw [Int.emod_eq_of_lt h (by omega), if_pos (by omega)]
    exact ⟨start / 2 ^ 33, by omega, by omega, by omega⟩
  · have : start % 2 ^ 64 = start + 2 ^ 64 := by omega
    rw [this, if_neg (by omega)]
    exact ⟨(start + 2 ^ 64) / 2 ^ 33 - 2 ^ 31, by omega, by omega, by omega⟩

end Verif.Sub
