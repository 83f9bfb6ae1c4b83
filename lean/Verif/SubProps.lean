import Verif.SubTtml

/-! # Properties of subtitles -/

namespace Verif.Sub

open SubSpec (Cue cues lines hasArrow readVtt Sample ms CueOk shown readTtml plain para textOf)

/-! ## C102: the buffers are large enough -/

theorem splitFirst_len (h : Bytes) : (splitFirst h).1.length + (splitFirst h).2.length ≤ h.length := by
  induction h with
  | nil => simp [splitFirst]
  | cons c b ih =>
    rw [splitFirst]
    split
    · simp; omega
    · split
      · simp
      · simp only [List.length_cons]; omega

theorem vttCues_len (ts : Nat) (fs : List Frame) (cur : Int) :
    (vttCues ts cur fs).length ≤ (fs.map (·.data.length)).sum + (stampMax * 2 + 5 + 4) * fs.length := by
  have hm : stampMax = 21 := rfl
  rw [hm]
  induction fs generalizing cur with
  | nil => simp [vttCues]
  | cons f fs ih =>
    rw [vttCues, List.length_append, List.map_cons, List.sum_cons, List.length_cons]
    have := ih (cur + f.dur)
    have hc : List.length (α := UInt8) (match cueOf f.data with | none => [] | some c => vttCue ts cur (cur + f.delay) c) ≤ f.data.length + 51 := by
      split
      · simp
      · rename_i c hc
        have h1 := cueOf_len hc
        have h2 := stamp_len cur ts
        have h3 := stamp_len (cur + f.delay) ts
        have h4 : (str " --> ").length = 5 := by decide
        have h5 : (str " ").length = 1 := by decide
        have h6 : (if 0 < c.2.length then str " " ++ c.2 else []).length ≤ 1 + c.2.length := by
          split
          · rw [List.length_append, h5]; omega
          · simp
        unfold vttCue
        simp only [List.length_append, List.length_cons, List.length_nil]
        omega
    exact Nat.le_trans (Nat.add_le_add hc this) (by omega)

theorem strip_len (b : Bytes) (x : Bool) : (strip x b).length ≤ b.length := by
  induction b generalizing x with
  | nil => cases x <;> simp [strip]
  | cons c b ih =>
    have h1 := ih true
    have h2 := ih false
    cases x <;> rw [strip] <;> split <;> simp only [List.length_cons] <;> omega

theorem ttmlCues_len (ts : Nat) (fs : List Frame) (cur : Int) :
    (ttmlCues ts cur fs).length ≤ (fs.map (·.data.length)).sum + (16 + 7 + 2 + stampMax * 2 + 5) * fs.length := by
  have hm : stampMax = 21 := rfl
  rw [hm]
  induction fs generalizing cur with
  | nil => simp [ttmlCues]
  | cons f fs ih =>
    rw [ttmlCues, List.length_append, List.map_cons, List.sum_cons, List.length_cons]
    have := ih (cur + f.dur)
    have hc : List.length (α := UInt8) (match cueOf f.data with | none => [] | some c => ttmlCue ts cur (cur + f.delay) c) ≤ f.data.length + 72 := by
      split
      · simp
      · rename_i c hc
        have h1 := cueOf_len hc
        have h2 := stamp_len cur ts
        have h3 := stamp_len (cur + f.delay) ts
        have h4 : (str "      <p begin=\"").length = 16 := by decide
        have h5 : (str "\" end=\"").length = 7 := by decide
        have h6 : (str "\">").length = 2 := by decide
        have h7 : (str "</p>\n").length = 5 := by decide
        have h8 := strip_len c.1 false
        unfold ttmlCue
        simp only [List.length_append]
        omega
    exact Nat.le_trans (Nat.add_le_add hc this) (by omega)

theorem vttBuild_ok (t : Track) : vttBuild t = .ok (vttBytes t) := by
  unfold vttBuild
  rw [if_neg]
  have h1 := vttCues_len t.timescale t.frames (t.start - baseTime t.start)
  have h2 := splitFirst_len t.header
  unfold vttBytes vttSize
  simp only [List.length_append, List.length_cons, List.length_nil]
  omega

theorem ttmlBuild_ok (t : Track) : ttmlBuild t = .ok (ttmlBytes t) := by
  unfold ttmlBuild
  rw [if_neg]
  have h1 := ttmlCues_len t.timescale t.frames t.start
  unfold ttmlBytes ttmlSize
  simp only [List.length_append]
  omega

/-- **C102.** Whatever the frames and the header of a subtitle track hold, and whatever the times, neither the WebVTT file nor the TTML
document is written past the end of its buffer. -/
theorem buffers_fit (s : Int) (dur : Nat) (t : Track) : vttResponse s dur t ≠ .ub ∧ ttmlResponse s dur t ≠ .ub := by
  unfold vttResponse ttmlResponse
  rw [vttBuild_ok, ttmlBuild_ok]
  exact ⟨(fun h => nomatch h), (fun h => nomatch h)⟩

/-! ## C100: WebVTT -/

theorem cues_ge (fs : List Frame) (t : Int) : ∀ c ∈ cues t (fs.map Frame.spec), t ≤ c.start ∧ c.start ≤ c.stop := by
  induction fs generalizing t with
  | nil => intro c hc; cases hc
  | cons f fs ih =>
    intro c hc
    simp only [List.map_cons, Frame.spec, cues, List.mem_cons] at hc
    rcases hc with hc | hc
    · subst hc; simp only; omega
    · have := ih _ c hc; omega

theorem within_le {s e : Int} {l : List Cue} : ∀ c ∈ l.filterMap (Cue.within s e), s ≤ c.start ∧ c.stop ≤ e ∧ ∃ d ∈ l, d.data = c.data := by
  intro c hc
  rw [List.mem_filterMap] at hc
  obtain ⟨d, hd, hc⟩ := hc
  unfold Cue.within at hc
  split at hc
  · injection hc with hc
    subst hc
    exact ⟨by simp only; omega, by simp only; omega, d, hd, rfl⟩
  · cases hc

theorem frame_cue (fs : List Frame) (t : Int) : ∀ f ∈ fs, ∃ c ∈ cues t (fs.map Frame.spec), c.data = f.data := by
  induction fs generalizing t with
  | nil => intro f hf; cases hf
  | cons g fs ih =>
    intro f hf
    simp only [List.map_cons, Frame.spec, cues]
    rcases List.mem_cons.mp hf with hf | hf
    · subst hf; exact ⟨_, List.mem_cons_self, rfl⟩
    · obtain ⟨c, h1, h2⟩ := ih (t + g.dur) f hf
      exact ⟨c, List.mem_cons_of_mem _ h1, h2⟩

/-- The frames of a cut track are some of the frames of the track. -/
theorem trim_data (s : Int) (dur : Nat) (h0 : 0 < dur) (h1 : dur < 2 ^ 32) (t : Track) :
    ∀ f ∈ (trim s dur t).frames, ∃ g ∈ t.frames, g.data = f.data := by
  intro f hf
  obtain ⟨c, hc, e⟩ := frame_cue _ (trim s dur t).start f hf
  have ht := trim_cues s dur h0 h1 t
  unfold Track.cues at ht
  rw [ht] at hc
  obtain ⟨_, _, d, hd, e2⟩ := within_le c hc
  obtain ⟨g, hg, e3⟩ := cues_data _ _ d hd
  exact ⟨g, hg, by rw [e3, e2, e]⟩

theorem trim_same (s : Int) (dur : Nat) (t : Track) : (trim s dur t).timescale = t.timescale ∧ (trim s dur t).header = t.header := by
  unfold trim; split <;> exact ⟨rfl, rfl⟩

/-- **C100.** A WebVTT segment has the first line of the header of the track, then the line that maps times to those of MPEG-TS. A client
reads from it the cues of the track as they are cut at the borders of the segment, each one once and in order, with its text, its
settings, and its times in milliseconds. The times are counted from a multiple of 2^33, the same for all cues of the segment, which
is at or before the first cue by less than 2^33. -/
theorem vtt_read (s : Int) (dur : Nat) (h0 : 0 < dur) (h1 : dur < 2 ^ 32) (hs0 : -2 ^ 63 ≤ s) (hs1 : s + dur < 2 ^ 63) (t : Track)
    (hts : 0 < t.timescale) (hts' : t.timescale < 2 ^ 32) (hh : ∀ l ∈ lines t.header, hasArrow l = false)
    (sample : Bytes → Option (Bytes × Bytes)) (hsm : ∀ f ∈ t.frames, Sample f.data (sample f.data))
    (hok : ∀ f ∈ t.frames, ∀ x ∈ sample f.data, CueOk x) :
    ∃ (b : Bytes) (base k : Int), vttResponse s dur t = .ok b ∧ base = k * 2 ^ 33 ∧
      (lines b).head? = (lines t.header).head? ∧
      (lines b)[1]? = some (SubSpec.str "X-TIMESTAMP-MAP=MPEGTS:0,LOCAL:00:00:00.000") ∧
      (∀ c ∈ (t.cues.filterMap (Cue.within s (s + dur))).head?, base ≤ c.start ∧ c.start < base + 2 ^ 33) ∧
      readVtt b = (t.cues.filterMap (Cue.within s (s + dur))).filterMap fun c => (sample c.data).map (shown t.timescale base c) := by
  have hst := trim_start s dur h0 h1 t
  have hcut := trim_cues s dur h0 h1 t
  obtain ⟨e1, e2⟩ := trim_same s dur t
  have hdata := trim_data s dur h0 h1 t
  unfold vttResponse
  rw [vttBuild_ok, ← hcut, ← e1]
  rw [← e2] at hh
  rw [← e1] at hts hts'
  rw [← e2]
  have hcw : ∀ c ∈ (trim s dur t).cues, c.stop ≤ s + dur := fun c hc => by
    rw [hcut] at hc; exact (within_le c hc).2.1
  generalize trim s dur t = u at *
  obtain ⟨k, hk, hb0, hb1⟩ := baseTime_spec (start := u.start) (by omega) (by omega)
  obtain ⟨r1, r2, r3⟩ := read_vttBytes u hh
  refine ⟨_, baseTime u.start, k, rfl, hk, r2, r3, ?_, ?_⟩
  · intro c hc
    have : c.start = u.start := by
      unfold Track.cues at hc
      cases hf : u.frames with
      | nil => rw [hf] at hc; simp [cues] at hc
      | cons f fs => rw [hf] at hc; simp [Frame.spec, cues] at hc; rw [← hc]
    omega
  · rw [r1, read_vttCues sample]
    · rw [show u.start - baseTime u.start = u.start + -baseTime u.start by omega, cues_shift, List.filterMap_map]
      unfold Track.cues
      refine congrArg (fun g => List.filterMap g (cues u.start (u.frames.map Frame.spec))) ?_
      funext c
      simp only [Function.comp]
      have hc : shown u.timescale 0 ⟨c.start + -baseTime u.start, c.stop + -baseTime u.start, c.data⟩ = shown u.timescale (baseTime u.start) c := by
        funext x
        simp only [shown, Int.sub_eq_add_neg, Int.neg_zero, Int.add_zero]
      rw [hc]
    · intro f hf
      obtain ⟨g, hg, e⟩ := hdata f hf
      rw [← e]; exact hsm g hg
    · intro f hf
      obtain ⟨g, hg, e⟩ := hdata f hf
      rw [← e]; exact hok g hg
    · intro c hc
      have hc' := hc
      rw [show u.start - baseTime u.start = u.start + -baseTime u.start by omega, cues_shift, List.mem_map] at hc
      obtain ⟨d, hd, e⟩ := hc
      have h2 := hcw d hd
      have h3 := cues_ge _ _ c hc'
      have h4 : c.stop = d.stop + -baseTime u.start := by rw [← e]
      omega

/-! ## C101: TTML -/

/-- What is claimed for all texts of WebVTT and all times; it does not hold, see `SubCases`. -/
def TtmlClaim : Prop :=
  ∀ (s : Int) (dur : Nat), 0 < dur → dur < 2 ^ 32 → -2 ^ 63 ≤ s → s + dur < 2 ^ 63 → ∀ t : Track, 0 < t.timescale → t.timescale < 2 ^ 32 →
    ∀ sample : Bytes → Option (Bytes × Bytes), (∀ f ∈ t.frames, Sample f.data (sample f.data)) →
    (∀ f ∈ t.frames, ∀ x ∈ sample f.data, CueOk x) →
    ∃ b, ttmlResponse s dur t = .ok b ∧ (readTtml b).isSome

/-- **C101, in part.** For a segment at times from 0 on that do not overflow, if the texts of cues have no reference but to the entities
of XML and no tag without an end, the document is well formed, and has for each cue, cut at the borders of the segment, a paragraph
with its times in milliseconds and its text without tags. -/
theorem ttml_read_partial (s : Int) (dur : Nat) (h0 : 0 < dur) (h1 : dur < 2 ^ 32) (hs0 : 0 ≤ s) (t : Track)
    (hs1 : (s + dur) * 1000 + t.timescale / 2 < 2 ^ 53)
    (sample : Bytes → Option (Bytes × Bytes)) (hsm : ∀ f ∈ t.frames, Sample f.data (sample f.data))
    (hok : ∀ f ∈ t.frames, ∀ x ∈ sample f.data, (plain x.1).isSome) :
    ∃ b, ttmlResponse s dur t = .ok b ∧
      readTtml b = some ((t.cues.filterMap (Cue.within s (s + dur))).filterMap fun c => (textOf (sample c.data)).map (para t.timescale c)) := by
  have hcut := trim_cues s dur h0 h1 t
  obtain ⟨e1, _⟩ := trim_same s dur t
  have hdata := trim_data s dur h0 h1 t
  unfold ttmlResponse
  rw [ttmlBuild_ok]
  refine ⟨_, rfl, ?_⟩
  rw [read_ttmlBytes _ sample, hcut, e1]
  · intro f hf
    obtain ⟨g, hg, e⟩ := hdata f hf
    rw [← e]; exact hsm g hg
  · intro f hf
    obtain ⟨g, hg, e⟩ := hdata f hf
    rw [← e]; exact hok g hg
  · intro c hc
    have h3 := cues_ge _ _ c hc
    rw [hcut] at hc
    have h4 := within_le c hc
    rw [e1]
    omega

end Verif.Sub
