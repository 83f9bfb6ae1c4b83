import Verif.Sub
import Verif.SubSpec

/-! # Cues are cut at the borders of a segment -/

namespace Verif.Sub

open SubSpec (Cue cues)

/-- A frame as the specification has it. -/
def Frame.spec (f : Frame) : Nat × Nat × Bytes := (f.dur, f.delay, f.data)

/-- The cues of a track. -/
def Track.cues (t : Track) : List Cue := SubSpec.cues t.start (t.frames.map Frame.spec)

theorem u32_of {x : Int} (h0 : 0 ≤ x) (h1 : x < 2 ^ 32) : (u32 x : Int) = x := by
  unfold u32; rw [Int.emod_eq_of_lt h0 h1]; omega

theorem cues_append (a : List Frame) (f : Frame) (t : Int) :
    cues t ((a ++ [f]).map Frame.spec) =
      cues t (a.map Frame.spec) ++ [⟨t + (a.map (·.dur)).sum, t + (a.map (·.dur)).sum + f.delay, f.data⟩] := by
  induction a generalizing t with
  | nil => simp [SubSpec.cues, Frame.spec]
  | cons g a ih =>
    simp only [List.cons_append, List.map_cons, Frame.spec, SubSpec.cues, List.sum_cons, ih]
    simp only [List.cons.injEq, true_and]
    congr 3 <;> simp only [Int.natCast_add] <;> omega

/-- What the state has: the cues so far, all of them from the start of the segment on. -/
structure TrimInv (s e : Int) (w : Trim) (done : List Cue) : Prop where
  cues : SubSpec.cues w.start (w.out.map Frame.spec) = done
  last : w.out ≠ [] → w.last = w.start + (w.out.dropLast.map (·.dur)).sum
  zero : ∀ f ∈ w.out.getLast?, f.dur = 0
  ge : w.out ≠ [] → s ≤ w.last ∧ w.last < e

theorem TrimInv.add {s e : Int} {w : Trim} {done : List Cue} (h : TrimInv s e w done) {cs ce : Int} (hs : s ≤ cs) (he : ce ≤ e)
    (hc : cs < ce) (hle : w.out ≠ [] → w.last ≤ cs) (hd : e - s < 2 ^ 32) (data : Bytes) :
    TrimInv s e (w.add cs ce data) (done ++ [⟨cs, ce, data⟩]) := by
  have hu : (u32 (ce - cs) : Int) = ce - cs := u32_of (by omega) (by omega)
  unfold Trim.add
  cases ho : w.out.getLast? with
  | none =>
    have hn : w.out = [] := List.getLast?_eq_none_iff.mp ho
    have hdn : done = [] := by rw [← h.cues, hn]; rfl
    refine ⟨?_, ?_, ?_, ?_⟩
    · simp only [hdn, List.map_cons, List.map_nil, Frame.spec, SubSpec.cues, List.nil_append, hu]
      congr 2; omega
    · simp
    · simp
    · intro _; simp only; omega
  | some f =>
    have hne : w.out ≠ [] := by intro hn; rw [hn] at ho; cases ho
    have hlast : w.out = w.out.dropLast ++ [f] := by
      have := List.dropLast_concat_getLast hne
      rw [List.getLast?_eq_some_getLast hne] at ho
      injection ho with ho
      rw [ho] at this; exact this.symm
    have hl := h.last hne
    have hg := h.ge hne
    have hv : (u32 (cs - w.last) : Int) = cs - w.last := u32_of (by have := hle hne; omega) (by omega)
    generalize hA : w.out.dropLast = A at *
    refine ⟨?_, ?_, ?_, ?_⟩
    · have h1 := h.cues
      rw [hlast, cues_append] at h1
      simp only
      rw [show A ++ [{ f with dur := u32 (cs - w.last) }, (⟨0, u32 (ce - cs), data⟩ : Frame)] =
        (A ++ [{ f with dur := u32 (cs - w.last) }]) ++ [⟨0, u32 (ce - cs), data⟩] by simp]
      rw [cues_append, cues_append]
      rw [h1]
      simp only [List.map_append, List.map_cons, List.map_nil, List.sum_append, List.sum_cons, List.sum_nil]
      congr 2
      simp only [Int.natCast_add, hv, hu, Int.natCast_zero]
      congr 1 <;> omega
    · intro _
      simp only
      rw [show A ++ [{ f with dur := u32 (cs - w.last) }, (⟨0, u32 (ce - cs), data⟩ : Frame)] =
        (A ++ [{ f with dur := u32 (cs - w.last) }]) ++ [⟨0, u32 (ce - cs), data⟩] by simp]
      rw [List.dropLast_concat]
      simp only [List.map_append, List.map_cons, List.map_nil, List.sum_append, List.sum_cons, List.sum_nil]
      simp only [Int.natCast_add, hv, Int.natCast_zero]
      omega
    · intro g hg
      simp at hg
      rw [← hg]
    · intro _; simp only; omega

theorem within_late {s e t : Int} (h : e ≤ t) : ∀ (fs : List Frame), (cues t (fs.map Frame.spec)).filterMap (Cue.within s e) = [] := by
  intro fs
  induction fs generalizing t with
  | nil => rfl
  | cons f fs ih =>
    simp only [List.map_cons, Frame.spec, cues, List.filterMap_cons]
    rw [show Cue.within s e ⟨t, t + f.delay, f.data⟩ = none by
      unfold Cue.within; rw [if_neg]; simp only; omega]
    exact ih (t := t + f.dur) (by omega)

theorem trimGo_inv {s e : Int} (hse : s < e) (hd : e - s < 2 ^ 32) (fs : List Frame) :
    ∀ (cur : Int) (w : Trim) (done : List Cue), TrimInv s e w done → (w.out ≠ [] → w.last ≤ max cur s) →
      TrimInv s e (trimGo s e cur fs w) (done ++ (cues cur (fs.map Frame.spec)).filterMap (Cue.within s e)) := by
  induction fs with
  | nil => intro cur w done h _; simpa [trimGo, SubSpec.cues] using h
  | cons f fs ih =>
    intro cur w done h hle
    rw [trimGo]
    by_cases hl : e ≤ cur
    · rw [if_pos hl, within_late hl (f :: fs), List.append_nil]; exact h
    · rw [if_neg hl]
      simp only [List.map_cons, Frame.spec, cues, List.filterMap_cons]
      have hcs : (if cur < s then s else cur) = max cur s := by split <;> omega
      have hce : (if e < cur + (f.delay : Int) then e else cur + f.delay) = min (cur + f.delay) e := by split <;> omega
      rw [hcs, hce]
      by_cases hc : min (cur + (f.delay : Int)) e ≤ max cur s
      · rw [if_pos hc]
        rw [show Cue.within s e ⟨cur, cur + f.delay, f.data⟩ = none by
          unfold Cue.within; rw [if_neg]; simp only; omega]
        exact ih _ _ _ h (fun hn => by have := hle hn; omega)
      · rw [if_neg hc]
        rw [show Cue.within s e ⟨cur, cur + f.delay, f.data⟩ = some ⟨max cur s, min (cur + f.delay) e, f.data⟩ by
          unfold Cue.within; rw [if_pos]; simp only; omega]
        simp only
        have := ih (cur + f.dur) _ _ (h.add (cs := max cur s) (ce := min (cur + f.delay) e) (by omega) (by omega) (by omega) hle hd f.data)
          (fun _ => by
            have : (w.add (max cur s) (min (cur + f.delay) e) f.data).last = max cur s := by
              unfold Trim.add; split <;> rfl
            rw [this]; omega)
        rw [List.append_assoc] at this
        exact this

/-- **C99.** -/
theorem trim_cues (s : Int) (dur : Nat) (h0 : 0 < dur) (h1 : dur < 2 ^ 32) (t : Track) :
    (trim s dur t).cues = t.cues.filterMap (Cue.within s (s + dur)) := by
  have h := trimGo_inv (s := s) (e := s + dur) (by omega) (by omega) t.frames t.start ⟨[], t.start, 0⟩ []
    ⟨rfl, by simp, by simp, by simp⟩ (by simp)
  unfold Track.cues trim
  rw [if_neg (by omega)]
  simp only
  have hc := h.cues
  rw [List.nil_append] at hc
  rw [← hc]
  split
  · rename_i hn; rw [hn]; rfl
  · rfl

/-- The first cue of a cut track is in the segment. -/
theorem trim_start (s : Int) (dur : Nat) (h0 : 0 < dur) (h1 : dur < 2 ^ 32) (t : Track) :
    s ≤ (trim s dur t).start ∧ (trim s dur t).start < s + dur := by
  have h := trimGo_inv (s := s) (e := s + dur) (by omega) (by omega) t.frames t.start ⟨[], t.start, 0⟩ []
    ⟨rfl, by simp, by simp, by simp⟩ (by simp)
  have hcut := trim_cues s dur h0 h1 t
  unfold Track.cues at hcut
  cases hf : (trim s dur t).frames with
  | nil =>
    have : (trim s dur t).start = s := by
      unfold trim at hf ⊢
      rw [if_neg (by omega)] at hf ⊢
      simp only at hf ⊢
      rw [if_pos hf]
    omega
  | cons f fs =>
    rw [hf] at hcut
    simp only [List.map_cons, Frame.spec, cues] at hcut
    have hm : (⟨(trim s dur t).start, (trim s dur t).start + f.delay, f.data⟩ : Cue) ∈
        (cues t.start (t.frames.map Frame.spec)).filterMap (Cue.within s (s + dur)) := by rw [← hcut]; simp
    rw [List.mem_filterMap] at hm
    obtain ⟨c, _, hc⟩ := hm
    unfold Cue.within at hc
    split at hc
    · injection hc with hc
      have := congrArg Cue.start hc
      simp only at this
      omega
    · cases hc

end Verif.Sub
