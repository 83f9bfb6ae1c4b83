import Verif.SubProps

/-! # Cases of subtitles -/

namespace Verif.Sub.Cases

open Verif.Sub
open SubSpec (box Sample CueOk Cue lines hasArrow readTtml readVtt plain)

/-- A cue with settings and two lines, one with a tag and an entity. -/
def kids1 : List (Bytes × Bytes) := [(str "sttg", str "line:0"), (str "payl", str "Hello\n<b>A &amp; b</b>")]
def kids2 : List (Bytes × Bytes) := [(str "iden", str "7"), (str "payl", str "World")]
def d1 : Bytes := box (str "vttc") (kids1.flatMap fun k => box k.1 k.2)
def d2 : Bytes := box (str "vttc") (kids2.flatMap fun k => box k.1 k.2)
def d0 : Bytes := box (str "vtte") []

/-- Two cues and a gap; the first cue starts before the segment, the second one ends after it. -/
def track : Track := ⟨90000, str "WEBVTT\n\nSTYLE\nx", 450000000, [⟨180000, 180000, d1⟩, ⟨90000, 90000, d0⟩, ⟨0, 3600000, d2⟩]⟩

def sample (b : Bytes) : Option (Bytes × Bytes) :=
  if b = d1 then some (str "Hello\n<b>A &amp; b</b>", str "line:0") else if b = d2 then some (str "World", []) else none

theorem sample1 : Sample d1 (some (str "Hello\n<b>A &amp; b</b>", str "line:0")) :=
  .cue kids1 _ _ (by decide) (by decide) (by decide) (by decide) (.inl (by decide)) (by decide +kernel)

theorem sample2 : Sample d2 (some (str "World", [])) :=
  .cue kids2 _ _ (by decide) (by decide) (by decide) (by decide) (.inr ⟨rfl, by decide⟩) (by decide +kernel)

theorem samples : ∀ f ∈ track.frames, Sample f.data (sample f.data) := by
  intro f hf
  simp only [track, List.mem_cons, List.not_mem_nil, or_false] at hf
  rcases hf with rfl | rfl | rfl
  · have : sample d1 = some (str "Hello\n<b>A &amp; b</b>", str "line:0") := by decide +kernel
    simp only; rw [this]; exact sample1
  · have : sample d0 = none := by decide +kernel
    simp only; rw [this]; exact .empty
  · have : sample d2 = some (str "World", []) := by decide +kernel
    simp only; rw [this]; exact sample2

theorem ok1 : CueOk (str "Hello\n<b>A &amp; b</b>", str "line:0") := ⟨by decide +kernel, by decide +kernel⟩
theorem ok2 : CueOk (str "World", []) := ⟨by decide +kernel, by decide +kernel⟩

theorem cuesOk : ∀ f ∈ track.frames, ∀ x ∈ sample f.data, CueOk x := by
  intro f hf x hx
  simp only [track, List.mem_cons, List.not_mem_nil, or_false] at hf
  rcases hf with rfl | rfl | rfl
  · have : sample d1 = some (str "Hello\n<b>A &amp; b</b>", str "line:0") := by decide +kernel
    rw [this] at hx; cases hx; exact ok1
  · have : sample d0 = none := by decide +kernel
    rw [this] at hx; cases hx
  · have : sample d2 = some (str "World", []) := by decide +kernel
    rw [this] at hx; cases hx; exact ok2

/-- C99: the first cue is cut at the start of the segment, the last one at its end. -/
example : (trim 450090000 360000 track).cues = track.cues.filterMap (Cue.within 450090000 450450000) :=
  trim_cues 450090000 360000 (by decide) (by decide) track

example : (track.cues.filterMap (Cue.within 450090000 450450000)).map (fun c => (c.start, c.stop)) =
    [(450090000, 450180000), (450180000, 450270000), (450270000, 450450000)] := by decide +kernel

/-- A cue that starts where the segment ends, and one that ends where it starts, are not in it. -/
example : (trim 450180000 90000 track).cues.map (fun c => (c.start, c.stop)) = [(450180000, 450270000)] := by decide +kernel

/-- C100: what the hypotheses ask for is met. -/
example := vtt_read 450090000 360000 (by decide) (by decide) (by decide) (by decide) track (by decide) (by decide)
  (by decide +kernel) sample samples cuesOk

example : vttResponse 450090000 360000 track = .ok (
    str "WEBVTT\r\nX-TIMESTAMP-MAP=MPEGTS:0,LOCAL:00:00:00.000\r\n\nSTYLE\nx\r\n" ++
    str "01:23:21.000 --> 01:23:22.000 line:0\nHello\n<b>A &amp; b</b>\n\n01:23:23.000 --> 01:23:25.000\nWorld\n\n") := by
  decide +kernel

/-- Times past 2^33 are counted from a multiple of it. -/
example : vttResponse 9000000000 360000 { track with start := 9000000000 } = .ok (
    str "WEBVTT\r\nX-TIMESTAMP-MAP=MPEGTS:0,LOCAL:00:00:00.000\r\n\nSTYLE\nx\r\n" ++
    str "01:15:56.282 --> 01:15:58.282 line:0\nHello\n<b>A &amp; b</b>\n\n01:15:59.282 --> 01:16:00.282\nWorld\n\n") := by
  decide +kernel

/-- C101: what the hypotheses ask for is met. -/
example := ttml_read_partial 450090000 360000 (by decide) (by decide) (by decide) track (by decide) sample samples
  (by
    intro f hf x hx
    simp only [track, List.mem_cons, List.not_mem_nil, or_false] at hf
    rcases hf with rfl | rfl | rfl
    · have : sample d1 = some (str "Hello\n<b>A &amp; b</b>", str "line:0") := by decide +kernel
      rw [this] at hx; cases hx; decide +kernel
    · have : sample d0 = none := by decide +kernel
      rw [this] at hx; cases hx
    · have : sample d2 = some (str "World", []) := by decide +kernel
      rw [this] at hx; cases hx; decide +kernel)

example : plain (str "Hello\n<b>A &amp; b</b>") = some (str "Hello\nA & b") := by decide +kernel

/-! ## TTML of a text of WebVTT that is not well formed -/

def kids3 : List (Bytes × Bytes) := [(str "payl", str "a&nbsp;b")]
def d3 : Bytes := box (str "vttc") (kids3.flatMap fun k => box k.1 k.2)
def track3 : Track := ⟨90000, str "WEBVTT", 0, [⟨0, 90000, d3⟩]⟩
def sample3 (_ : Bytes) : Option (Bytes × Bytes) := some (str "a&nbsp;b", [])

theorem ttml_nbsp : ∃ b, ttmlResponse 0 90000 track3 = .ok b ∧ readTtml b = none := by
  have h : (match ttmlResponse 0 90000 track3 with | .ok b => readTtml b == none | _ => false) = true := by decide +kernel
  split at h
  · rename_i b hb; exact ⟨b, hb, by simpa using h⟩
  · cases h

/-- A reference that WebVTT has and XML does not have is copied: the document is not well formed. -/
theorem not_ttml_claim : ¬ TtmlClaim := by
  intro h
  have hs : Sample d3 (some (str "a&nbsp;b", [])) :=
    .cue kids3 _ _ (by decide) (by decide) (by decide) (by decide) (.inr ⟨rfl, by decide⟩) (by decide +kernel)
  have hk : CueOk (str "a&nbsp;b", []) := ⟨by decide +kernel, by decide +kernel⟩
  obtain ⟨b, h1, h2⟩ := h 0 90000 (by decide) (by decide) (by decide) (by decide) track3 (by decide) (by decide) sample3
    (by intro f hf; simp only [track3, List.mem_cons, List.not_mem_nil, or_false] at hf; rw [hf]; exact hs)
    (by intro f hf x hx; simp only [sample3] at hx; cases hx; exact hk)
  obtain ⟨c, h3, h4⟩ := ttml_nbsp
  rw [h3] at h1
  injection h1 with h1
  rw [← h1, h4] at h2
  cases h2

/-- At a time before 0 the paragraph starts more than a million hours later. -/
theorem ttml_negative : ∃ b l, ttmlResponse (-90000) 180000 { track3 with start := -90000, frames := [⟨0, 90000, d2⟩] } = .ok b ∧
    readTtml b = some l ∧ ∀ p ∈ l, 3600000 * 1000000 < p.start := by
  have h : (match ttmlResponse (-90000) 180000 { track3 with start := -90000, frames := [⟨0, 90000, d2⟩] } with
    | .ok b => (match readTtml b with | some l => l.all fun p => decide (3600000 * 1000000 < p.start) | none => false)
    | _ => false) = true := by decide +kernel
  split at h
  · rename_i b hb
    split at h
    · rename_i l hl
      exact ⟨b, l, hb, hl, by rw [List.all_eq_true] at h; intro p hp; simpa using h p hp⟩
    · cases h
  · cases h

/-! ## Several cues in a sample -/

/-- ISO/IEC 14496-30 allows several cues in one sample; of these only the last text is shown, with the settings of another one. -/
example : cueOf (box (str "vttc") (box (str "sttg") (str "line:0") ++ box (str "payl") (str "A")) ++ box (str "vttc") (box (str "payl") (str "B"))) =
    some (str "B", str "line:0") := by decide +kernel

/-! ## C102: bytes that are no cue -/

/-- Sizes of atoms that go past their end, and a payload within a payload. -/
example : vttResponse 0 90000 ⟨90000, [], 0, [⟨0, 90000, [0, 0, 0, 9, 1, 2, 3, 4]⟩]⟩ =
    .ok (stampMap ++ [13, 10]) := by decide +kernel

example : (vttSize ⟨90000, [], 0, [⟨0, 90000, d1⟩]⟩, (vttBytes ⟨90000, [], 0, [⟨0, 90000, d1⟩]⟩).length) = (152, 110) := by decide +kernel

end Verif.Sub.Cases
