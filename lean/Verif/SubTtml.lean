import Verif.SubVtt

/-! # TTML documents read back -/

namespace Verif.Sub

open SubSpec (Cue cues Sample ms Tok toks Para readTag paras readTtml plain entities para textOf)

/-- Tokens of characters that are neither the start of a tag nor of a reference. -/
theorem toks_char {c : UInt8} (h1 : c ≠ 60) (h2 : c ≠ 38) (n : Nat) (b : Bytes) :
    toks (n + 1) (c :: b) = (toks n b).map (.char c :: ·) := by
  rw [toks, if_neg h1, if_neg h2]

/-- More turns do no harm. -/
theorem toks_mono (n : Nat) (b : Bytes) (l : List Tok) (h : toks n b = some l) (m : Nat) (hm : n ≤ m) : toks m b = some l := by
  induction n generalizing b l m with
  | zero =>
    cases b with
    | nil => rw [toks] at h ⊢; exact h
    | cons c b => simp [toks] at h
  | succ n ih =>
    cases b with
    | nil => rw [toks] at h ⊢; exact h
    | cons c b =>
      obtain ⟨k, rfl⟩ : ∃ k, m = k + 1 := ⟨m - 1, by omega⟩
      rw [toks] at h ⊢
      split
      · rename_i hc
        rw [if_pos hc] at h
        simp only at h ⊢
        split
        · rename_i ht; rw [if_pos ht] at h; cases h
        · rename_i ht
          rw [if_neg ht, Option.map_eq_some_iff] at h
          obtain ⟨l', h1, h2⟩ := h
          rw [ih _ _ h1 k (by omega), ← h2]; rfl
      · rename_i hc
        rw [if_neg hc] at h
        split
        · rename_i hd
          rw [if_pos hd] at h
          split
          · rename_i hf; rw [hf] at h; cases h
          · rename_i x hf
            rw [hf] at h
            simp only at h
            rw [Option.map_eq_some_iff] at h
            obtain ⟨l', h1, h2⟩ := h
            rw [ih _ _ h1 k (by omega), ← h2]; rfl
        · rename_i hd
          rw [if_neg hd, Option.map_eq_some_iff] at h
          obtain ⟨l', h1, h2⟩ := h
          rw [ih _ _ h1 k (by omega), ← h2]; rfl

/-- Whether a token is a character. -/
def charOf : Tok → Option UInt8
  | .char c => some c
  | .tag _ => none

theorem plain_eq (b : Bytes) : plain b = (toks b.length b).map fun l => l.filterMap charOf := by
  unfold plain
  congr 1

theorem strip_tag (b : Bytes) (h : ¬ (b.takeWhile (· ≠ 62)).length = b.length) :
    strip true b = strip false (b.drop ((b.takeWhile (· ≠ 62)).length + 1)) := by
  induction b with
  | nil => simp at h
  | cons c b ih =>
    rw [strip]
    by_cases hc : c = 62
    · rw [if_pos hc, List.takeWhile_cons_of_neg (by simp [hc])]; rfl
    · rw [if_neg hc]
      rw [List.takeWhile_cons_of_pos (by simp [hc])] at h ⊢
      rw [List.length_cons, List.length_cons] at h
      rw [ih (by omega), List.length_cons, List.drop_succ_cons]

theorem entities_noLt : ∀ x ∈ entities, ∀ c ∈ x.1, c ≠ 60 := by decide

theorem strip_append {a : Bytes} (h : ∀ c ∈ a, c ≠ 60) (b : Bytes) : strip false (a ++ b) = a ++ strip false b := by
  induction a with
  | nil => rfl
  | cons c a ih =>
    rw [List.cons_append, strip, if_neg (h c (by simp)), ih (fun x hx => h x (by simp [hx]))]; rfl

theorem entities_head : ∀ x ∈ entities, ∀ y ∈ entities, x.1.isPrefixOf y.1 = true → x = y := by decide

/-- Two entities do not both start a text. -/
theorem find_entity {x : Bytes × UInt8} (hx : x ∈ entities) (r : Bytes) :
    entities.find? (fun y => y.1.isPrefixOf (x.1 ++ r)) = some x := by
  have h0 : entities = [(SubSpec.str "amp;", 38), (SubSpec.str "lt;", 60), (SubSpec.str "gt;", 62), (SubSpec.str "quot;", 34), (SubSpec.str "apos;", 39)] := rfl
  have a1 : SubSpec.str "amp;" = [97, 109, 112, 59] := by decide
  have a2 : SubSpec.str "lt;" = [108, 116, 59] := by decide
  have a3 : SubSpec.str "gt;" = [103, 116, 59] := by decide
  have a4 : SubSpec.str "quot;" = [113, 117, 111, 116, 59] := by decide
  have a5 : SubSpec.str "apos;" = [97, 112, 111, 115, 59] := by decide
  rw [h0] at hx ⊢
  rw [a1, a2, a3, a4, a5] at hx ⊢
  simp only [List.mem_cons, List.not_mem_nil, or_false] at hx
  rcases hx with rfl | rfl | rfl | rfl | rfl <;> simp [List.find?, List.isPrefixOf]

/-- The text of a cue after its tags were taken out, followed by a tag. -/
theorem toks_strip (n : Nat) (b : Bytes) (l : List Tok) (h : toks n b = some l) (m : Nat) (r : Bytes) (R : List Tok)
    (hr : toks m (60 :: r) = some R) :
    ∃ k, toks k (strip false b ++ 60 :: r) = some ((l.filterMap charOf).map Tok.char ++ R) := by
  induction n generalizing b l with
  | zero =>
    cases b with
    | nil => rw [toks] at h; injection h with h; subst h; exact ⟨m, hr⟩
    | cons c b => simp [toks] at h
  | succ n ih =>
    cases b with
    | nil => rw [toks] at h; injection h with h; subst h; exact ⟨m, hr⟩
    | cons c b =>
      rw [toks] at h
      by_cases hc : c = 60
      · rw [if_pos hc] at h
        simp only at h
        split at h
        · cases h
        · rename_i ht
          rw [Option.map_eq_some_iff] at h
          obtain ⟨l', h1, h2⟩ := h
          subst h2
          rw [strip, if_pos hc, strip_tag b ht]
          obtain ⟨k, hk⟩ := ih _ _ h1
          refine ⟨k, ?_⟩
          rw [hk, List.filterMap_cons_none rfl]
      · rw [if_neg hc] at h
        by_cases hd : c = 38
        · rw [if_pos hd] at h
          split at h
          · cases h
          · rename_i x hf
            rw [Option.map_eq_some_iff] at h
            obtain ⟨l', h1, h2⟩ := h
            subst h2
            have hx := List.mem_of_find?_eq_some hf
            have hp := List.find?_some hf
            rw [List.isPrefixOf_iff_prefix] at hp
            obtain ⟨q, hq⟩ := hp
            subst hq
            rw [List.drop_left] at h1
            obtain ⟨k, hk⟩ := ih _ _ h1
            refine ⟨k + 1, ?_⟩
            rw [strip, if_neg hc, strip_append (entities_noLt x hx), List.cons_append, toks, if_neg hc, if_pos hd, List.append_assoc,
              find_entity hx]
            simp only
            rw [List.drop_left, hk]
            simp [charOf]
        · rw [if_neg hd, Option.map_eq_some_iff] at h
          obtain ⟨l', h1, h2⟩ := h
          subst h2
          obtain ⟨k, hk⟩ := ih _ _ h1
          refine ⟨k + 1, ?_⟩
          rw [strip, if_neg hc, List.cons_append, toks_char hc hd, hk]
          simp [charOf]

/-- A text of characters only. -/
theorem toks_plain {a : Bytes} (h : ∀ c ∈ a, c ≠ 60 ∧ c ≠ 38) (m : Nat) (r : Bytes) (R : List Tok) (hr : toks m r = some R) :
    toks (a.length + m) (a ++ r) = some (a.map Tok.char ++ R) := by
  induction a with
  | nil => simpa using hr
  | cons c a ih =>
    rw [List.length_cons, Nat.add_right_comm, List.cons_append, toks_char (h c (by simp)).1 (h c (by simp)).2,
      ih (fun x hx => h x (by simp [hx]))]
    rfl

/-- A tag. -/
theorem toks_tag {a : Bytes} (h : ∀ c ∈ a, c ≠ 62) (m : Nat) (r : Bytes) (R : List Tok) (hr : toks m r = some R) :
    toks (m + 1) (60 :: (a ++ 62 :: r)) = some (Tok.tag a :: R) := by
  have hw : (a ++ 62 :: r).takeWhile (· ≠ 62) = a := by
    rw [List.takeWhile_append_of_pos (fun x hx => by simp [h x hx]), List.takeWhile_cons_of_neg (by simp), List.append_nil]
  rw [toks, if_pos rfl]
  simp only [hw]
  rw [if_neg (by simp)]
  rw [show (a ++ 62 :: r).drop (a.length + 1) = r by
    rw [← List.drop_drop, List.drop_left]; rfl, hr]
  rfl

theorem paras_chars_none (a : Bytes) (R : List Tok) : paras none (a.map Tok.char ++ R) = paras none R := by
  induction a with
  | nil => rfl
  | cons c a ih => rw [List.map_cons, List.cons_append, paras, ih]

theorem paras_chars_some (a : Bytes) (p : Para) (R : List Tok) :
    paras (some p) (a.map Tok.char ++ R) = paras (some { p with text := p.text ++ a }) R := by
  induction a generalizing p with
  | nil => simp
  | cons c a ih => rw [List.map_cons, List.cons_append, paras, ih]; simp

/-- The tag of a cue. -/
def ptag (ts : Nat) (cs ce : Int) : Bytes := str "p begin=\"" ++ (stamp cs ts ++ (str "\" end=\"" ++ (stamp ce ts ++ str "\"")))

theorem readTag_ptag {ts : Nat} {cs ce : Int} (h1 : millis cs ts / 3600000 < 2 ^ 32) (h2 : millis ce ts / 3600000 < 2 ^ 32) :
    readTag (ptag ts cs ce) = some ⟨millis cs ts, millis ce ts, []⟩ := by
  unfold ptag readTag
  rw [show SubSpec.str "p begin=\"" = str "p begin=\"" from rfl, after_append]
  simp only [Option.bind_eq_bind, Option.bind_some]
  rw [readTime_stamp cs ts h1]
  simp only [Option.bind_some]
  rw [show SubSpec.str "\" end=\"" = str "\" end=\"" from rfl, after_append]
  simp only [Option.bind_some]
  rw [readTime_stamp ce ts h2]
  simp only [Option.bind_some]
  rw [if_pos (show str "\"" = SubSpec.str "\"" from rfl)]

theorem digit_noGt : ∀ c : UInt8, SubSpec.isDigit c = true → c ≠ 62 := by
  intro c h hc; subst hc; revert h; decide

theorem stamp_noGt (t : Int) (ts : Nat) : ∀ c ∈ stamp t ts, c ≠ 62 := by
  intro c hc
  rcases stamp_bytes t ts c hc with h | h | h
  · exact digit_noGt c h
  · subst h; decide
  · subst h; decide

theorem lit_noGt : (∀ c ∈ str "p begin=\"", c ≠ 62) ∧ (∀ c ∈ str "\" end=\"", c ≠ 62) ∧ (∀ c ∈ str "\"", c ≠ 62) ∧ (∀ c ∈ str "/p", c ≠ 62) := by
  decide

theorem ptag_noGt (ts : Nat) (cs ce : Int) : ∀ c ∈ ptag ts cs ce, c ≠ 62 := by
  intro c hc
  unfold ptag at hc
  simp only [List.mem_append] at hc
  rcases hc with hc | hc | hc | hc | hc
  · exact lit_noGt.1 c hc
  · exact stamp_noGt _ _ c hc
  · exact lit_noGt.2.1 c hc
  · exact stamp_noGt _ _ c hc
  · exact lit_noGt.2.2.1 c hc

/-- What a cue adds to a document that is read. -/
theorem read_ttmlCue {ts : Nat} {cs ce : Int} (h1 : millis cs ts / 3600000 < 2 ^ 32) (h2 : millis ce ts / 3600000 < 2 ^ 32)
    (c : Bytes × Bytes) (s : Bytes) (hc : plain c.1 = some s) (m : Nat) (r : Bytes) (R : List Tok) (hr : toks m r = some R)
    (P : List Para) (hP : paras none R = some P) :
    ∃ k R', toks k (ttmlCue ts cs ce c ++ r) = some R' ∧ paras none R' = some (⟨millis cs ts, millis ce ts, s⟩ :: P) := by
  have e : ttmlCue ts cs ce c ++ r = str "      " ++ 60 :: (ptag ts cs ce ++ 62 :: (strip false c.1 ++ 60 :: (str "/p" ++ 62 :: ([10] ++ r)))) := by
    unfold ttmlCue ptag
    have a1 : str "      <p begin=\"" = str "      " ++ 60 :: str "p begin=\"" := by decide
    have a2 : str "\">" = str "\"" ++ [62] := by decide
    have a3 : str "</p>\n" = 60 :: (str "/p" ++ [62, 10]) := by decide
    rw [a1, a2, a3]
    simp only [List.append_assoc, List.cons_append, List.nil_append]
  rw [plain_eq, Option.map_eq_some_iff] at hc
  obtain ⟨l, hl, hs⟩ := hc
  have t1 := toks_plain (a := [10]) (by decide) m r R hr
  have t2 := toks_tag (a := str "/p") lit_noGt.2.2.2 _ _ _ t1
  obtain ⟨k, t3⟩ := toks_strip _ _ _ hl _ _ _ t2
  have t4 := toks_tag (ptag_noGt ts cs ce) _ _ _ t3
  have t5 := toks_plain (a := str "      ") (by decide) _ _ _ t4
  rw [← e] at t5
  refine ⟨_, _, t5, ?_⟩
  rw [paras_chars_none, paras, readTag_ptag h1 h2]
  simp only
  rw [paras_chars_some, paras, if_pos (show str "/p" = SubSpec.str "/p" from rfl), paras_chars_none, hP, hs]
  simp

theorem read_ttmlCues {ts : Nat} (sample : Bytes → Option (Bytes × Bytes)) (fs : List Frame) (cur : Int)
    (hs : ∀ f ∈ fs, Sample f.data (sample f.data)) (hok : ∀ f ∈ fs, ∀ x ∈ sample f.data, (plain x.1).isSome)
    (ht : ∀ c ∈ cues cur (fs.map Frame.spec), 0 ≤ c.start ∧ c.start ≤ c.stop ∧ c.stop * 1000 + ts / 2 < 2 ^ 53)
    (m : Nat) (r : Bytes) (R : List Tok) (hr : toks m r = some R) (P : List Para) (hP : paras none R = some P) :
    ∃ k R', toks k (ttmlCues ts cur fs ++ r) = some R' ∧
      paras none R' = some (((cues cur (fs.map Frame.spec)).filterMap fun c => (textOf (sample c.data)).map (para ts c)) ++ P) := by
  induction fs generalizing cur with
  | nil => exact ⟨m, R, hr, hP⟩
  | cons f fs ih =>
    obtain ⟨k, R1, e1, e2⟩ := ih (cur + f.dur) (fun g hg => hs g (by simp [hg])) (fun g hg => hok g (by simp [hg])) (fun c hc => ht c (by
      simp only [List.map_cons, Frame.spec, cues, List.mem_cons]; exact .inr hc))
    rw [ttmlCues, cueOf_sample (hs f (by simp))]
    simp only [List.map_cons, Frame.spec, cues, List.filterMap_cons]
    cases hx : sample f.data with
    | none => exact ⟨k, R1, by simpa using e1, by simpa [textOf] using e2⟩
    | some x =>
      obtain ⟨t1, t2, t3⟩ := ht ⟨cur, cur + f.delay, f.data⟩ (by simp [Frame.spec, cues])
      simp only at t1 t2 t3
      have ho := hok f (by simp) x (by simp [hx])
      obtain ⟨s, hp⟩ := Option.isSome_iff_exists.mp ho
      obtain ⟨k', R', e3, e4⟩ := read_ttmlCue (millis_hours t1 (by omega)) (millis_hours (by omega) t3) x s hp _ _ _ e1 _ e2
      rw [millis_ms t1 (by omega), millis_ms (by omega) (by omega)] at e4
      refine ⟨k', R', by simpa only [List.append_assoc] using e3, ?_⟩
      rw [e4]
      simp [textOf, hp, para]

theorem toks_len (n : Nat) (b : Bytes) (l : List Tok) (h : toks n b = some l) : toks b.length b = some l := by
  induction n generalizing b l with
  | zero =>
    cases b with
    | nil => exact h
    | cons c b => simp [toks] at h
  | succ n ih =>
    cases b with
    | nil => rw [toks] at h ⊢; exact h
    | cons c b =>
      rw [List.length_cons]
      rw [toks] at h ⊢
      split
      · rename_i hc
        rw [if_pos hc] at h
        simp only at h ⊢
        split
        · rename_i ht; rw [if_pos ht] at h; cases h
        · rename_i ht
          rw [if_neg ht, Option.map_eq_some_iff] at h
          obtain ⟨l', h1, h2⟩ := h
          rw [toks_mono _ _ _ (ih _ _ h1) b.length (by rw [List.length_drop]; omega), ← h2]; rfl
      · rename_i hc
        rw [if_neg hc] at h
        split
        · rename_i hd
          rw [if_pos hd] at h
          split
          · rename_i hf; rw [hf] at h; cases h
          · rename_i x hf
            rw [hf] at h
            simp only at h
            rw [Option.map_eq_some_iff] at h
            obtain ⟨l', h1, h2⟩ := h
            rw [toks_mono _ _ _ (ih _ _ h1) b.length (by rw [List.length_drop]; omega), ← h2]; rfl
        · rename_i hd
          rw [if_neg hd, Option.map_eq_some_iff] at h
          obtain ⟨l', h1, h2⟩ := h
          rw [ih _ _ h1, ← h2]; rfl

/-- The tokens of the header, before those of the rest. -/
def headToks : List Tok := (toks ttmlHeader.length ttmlHeader).getD []

theorem toks_app (n : Nat) (a : Bytes) (l : List Tok) (h : toks n a = some l) (ha : ∀ c ∈ a, c ≠ 38) (m : Nat) (r : Bytes) (R : List Tok)
    (hr : toks m r = some R) : toks (n + m) (a ++ r) = some (l ++ R) := by
  induction n generalizing a l with
  | zero =>
    cases a with
    | nil => rw [toks] at h; injection h with h; subst h; simpa using hr
    | cons c a => simp [toks] at h
  | succ n ih =>
    cases a with
    | nil =>
      rw [toks] at h; injection h with h; subst h
      exact toks_mono _ _ _ hr _ (by omega)
    | cons c a =>
      rw [Nat.add_right_comm, List.cons_append]
      rw [toks] at h
      by_cases hc : c = 60
      · subst hc
        rw [if_pos rfl] at h
        simp only at h
        split at h
        · cases h
        · rename_i ht
          rw [Option.map_eq_some_iff] at h
          obtain ⟨l', h1, h2⟩ := h
          subst h2
          have hi := ih _ _ h1 (fun x hx => ha x (by simp [List.mem_of_mem_drop hx]))
          have hsplit : a = a.takeWhile (· ≠ 62) ++ 62 :: a.drop ((a.takeWhile (· ≠ 62)).length + 1) := by
            clear hi h1 ih ha
            induction a with
            | nil => simp at ht
            | cons d a iha =>
              by_cases hd : d = 62
              · rw [List.takeWhile_cons_of_neg (by simp [hd]), hd]; rfl
              · rw [List.takeWhile_cons_of_pos (by simp [hd])] at ht ⊢
                rw [List.length_cons, List.length_cons] at ht
                rw [List.length_cons, List.drop_succ_cons, List.cons_append]
                congr 1
                exact iha (by omega)
          have hno : ∀ c ∈ a.takeWhile (· ≠ 62), c ≠ 62 := by
            intro c hc
            have := List.all_takeWhile (p := fun x : UInt8 => decide (x ≠ 62)) (l := a)
            rw [List.all_eq_true] at this
            simpa using this c hc
          have := toks_tag hno _ _ _ hi
          generalize a.takeWhile (· ≠ 62) = tw at *
          generalize a.drop (tw.length + 1) = dr at *
          rw [hsplit, List.append_assoc, List.cons_append, this]
          rfl
      · rw [if_neg hc, if_neg (ha c (by simp)), Option.map_eq_some_iff] at h
        obtain ⟨l', h1, h2⟩ := h
        subst h2
        rw [toks_char hc (ha c (by simp)), ih _ _ h1 (fun x hx => ha x (by simp [hx]))]
        rfl

theorem paras_head (l R : List Tok) (h : ∀ t ∈ l, ∀ b, t = .tag b → readTag b = none) : paras none (l ++ R) = paras none R := by
  induction l with
  | nil => rfl
  | cons t l ih =>
    have hi := ih (fun x hx => h x (by simp [hx]))
    cases t with
    | char c => rw [List.cons_append, paras, hi]
    | tag b => rw [List.cons_append, paras, h _ (by simp) b rfl]; exact hi

theorem header_toks : toks ttmlHeader.length ttmlHeader = some headToks ∧ (∀ c ∈ ttmlHeader, c ≠ 38) := by decide +kernel

theorem header_paras : paras none headToks = some [] ∧ headToks.all (fun t => match t with | .tag b => (readTag b).isNone | .char _ => true) = true := by
  decide +kernel

theorem footer_toks : ∃ R, toks ttmlFooter.length ttmlFooter = some R ∧ paras none R = some [] := by
  refine ⟨(toks ttmlFooter.length ttmlFooter).getD [], ?_, ?_⟩ <;> decide +kernel

/-- A document read back. -/
theorem read_ttmlBytes (t : Track) (sample : Bytes → Option (Bytes × Bytes))
    (hs : ∀ f ∈ t.frames, Sample f.data (sample f.data)) (hok : ∀ f ∈ t.frames, ∀ x ∈ sample f.data, (plain x.1).isSome)
    (ht : ∀ c ∈ t.cues, 0 ≤ c.start ∧ c.start ≤ c.stop ∧ c.stop * 1000 + t.timescale / 2 < 2 ^ 53) :
    readTtml (ttmlBytes t) = some (t.cues.filterMap fun c => (textOf (sample c.data)).map (para t.timescale c)) := by
  obtain ⟨R, hR, hP⟩ := footer_toks
  obtain ⟨k, R1, e1, e2⟩ := read_ttmlCues sample t.frames t.start hs hok ht _ _ _ hR _ hP
  have e3 := toks_app _ _ _ header_toks.1 header_toks.2 _ _ _ e1
  unfold readTtml ttmlBytes
  rw [List.append_assoc, toks_len _ _ _ e3]
  simp only [Option.bind_some]
  rw [paras_head, e2, List.append_nil]
  · rfl
  · intro tk htk b hb
    have := header_paras.2
    rw [List.all_eq_true] at this
    have := this tk htk
    rw [hb] at this
    simpa using this

end Verif.Sub
