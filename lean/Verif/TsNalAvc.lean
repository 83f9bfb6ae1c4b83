import Verif.TsNalSets

/-!
# C79 for AVC
-/

namespace Verif.NalSpec

/-- The configuration of a decoder (ISO/IEC 14496-15, 5.3.3.1) with one sequence parameter set and one picture parameter set, and lengths of
four bytes. -/
def avcC (profile constraints level : UInt8) (sps pps : List UInt8) : List UInt8 :=
  [1, profile, constraints, level, 0xff, 0xe1, UInt8.ofNat (sps.length / 256), UInt8.ofNat sps.length] ++ sps ++
    [1, UInt8.ofNat (pps.length / 256), UInt8.ofNat pps.length] ++ pps

end Verif.NalSpec

namespace Verif.TsKmp

theorem filter_find (sets : List (Nat × List UInt8)) (h : (sets.map Prod.fst).Nodup) (a : Nat) :
    sets.filter (fun x => x.1 = a) = (sets.find? (fun x => x.1 = a)).toList := by
  induction sets with
  | nil => rfl
  | cons x xs ih =>
    rw [List.map_cons, List.nodup_cons] at h
    by_cases hx : x.1 = a
    · rw [List.filter_cons_of_pos (by simpa using hx), List.find?_cons_of_pos (by simpa using hx)]
      have : xs.filter (fun x => x.1 = a) = [] := by
        rw [List.filter_eq_nil_iff]
        intro y hy he
        have he : y.1 = a := by simpa using he
        exact h.1 (hx.trans he.symm ▸ List.mem_map.mpr ⟨y, hy, rfl⟩)
      rw [this]
      rfl
    · rw [List.filter_cons_of_neg (by simpa using hx), List.find?_cons_of_neg (by simpa using hx), ih h.2]

theorem pick_find (sets : List (Nat × List UInt8)) (h : (sets.map Prod.fst).Nodup) (a k : Nat)
    (hk : ∀ x ∈ sets, x.1 = a ↔ (x.2.headD 0).toNat % 32 = k) :
    ((sets.map Prod.snd).filter fun n => (n.headD 0).toNat % 32 = k).getLast? = (sets.find? (fun x => x.1 = a)).map Prod.snd := by
  rw [List.filter_map]
  have : sets.filter ((fun n : List UInt8 => decide ((n.headD 0).toNat % 32 = k)) ∘ Prod.snd) = sets.filter (fun x => x.1 = a) := by
    apply List.filter_congr
    intro x hx
    simp only [Function.comp]
    exact decide_eq_decide.mpr (hk x hx).symm
  rw [this, filter_find sets h]
  cases sets.find? (fun x => x.1 = a) <;> rfl

/-- C79 for AVC: when all the sequence parameter sets have one id, and all the picture parameter sets another, the decoder configuration
that is announced before a frame is the one of the last of each. Missing: several ids, see TsKmpCases. -/
theorem avc_parameter_sets_are_announced_partial (psId : List UInt8 → Option Nat) (cea : List UInt8 → Bool)
    (decode : List UInt8 → Option (Nat × Nat × UInt8 × UInt8 × UInt8)) (tries : Nat) (ps : List (Chain × Int × Int)) (p : Chain × Int × Int)
    (t t' : Track) (a b : Nat) (hab : a ≠ b)
    (hids : ∀ n ∈ nalsOf (ps ++ [p]), ((n.headD 0).toNat % 32 = 7 → psId (n.take 128) = some a) ∧
      ((n.headD 0).toNat % 32 = 8 → psId (n.take 128) = some b))
    (hne : ∀ q ∈ ps ++ [p], ∀ b ∈ q.1, b ≠ []) (h : runVideo (avc psId cea decode) { tries := tries } ps = .ok t)
    (hp : videoPes (avc psId cea decode) t p.1 p.2.1 p.2.2 = .ok t') (hout : t'.out ≠ t.out) :
    ∃ sps pps w hgt pr x l i, LastInfo t'.out i ∧
      ((nalsOf (ps ++ [p])).filter fun n => (n.headD 0).toNat % 32 = 7).getLast? = some sps ∧
      ((nalsOf (ps ++ [p])).filter fun n => (n.headD 0).toNat % 32 = 8).getLast? = some pps ∧
      decode sps = some (w, hgt, pr, x, l) ∧ i.width = w ∧ i.height = hgt ∧ i.extra = NalSpec.avcC pr x l sps pps := by
  obtain ⟨sets, i, h1, h2, h3⟩ := parameter_sets_are_announced _ tries ps p t t' hne h hp hout
  have htype : ∀ n, (avc psId cea decode).type n = (n.headD 0).toNat % 32 := fun n => rfl
  have hwith : ∀ id n, n ∈ setsWith (avc psId cea decode) id (nalsOf (ps ++ [p])) ↔
      n ∈ nalsOf (ps ++ [p]) ∧ ((n.headD 0).toNat % 32 = 7 ∨ (n.headD 0).toNat % 32 = 8) ∧ psId (n.take 128) = some id := by
    intro id n
    rw [setsWith, List.mem_filter]
    have hsave : (avc psId cea decode).save = [7, 8] := rfl
    have hps : (avc psId cea decode).psId = psId := rfl
    simp only [htype, decide_eq_true_eq, hsave, hps, List.mem_cons, List.not_mem_nil, or_false]
  have hmem : ∀ x ∈ sets, x.2 ∈ setsWith (avc psId cea decode) x.1 (nalsOf (ps ++ [p])) := by
    intro x hx
    have hf : sets.find? (fun y => y.1 = x.1) = some x := by
      have h4 : x ∈ sets.filter (fun y => y.1 = x.1) := List.mem_filter.mpr ⟨hx, by simp⟩
      rw [filter_find sets h1.ids] at h4
      exact Option.mem_toList.mp h4
    have h4 := h1.last x.1
    rw [hf, Option.map_some] at h4
    exact List.mem_of_getLast? h4.symm
  have hk7 : ∀ x ∈ sets, x.1 = a ↔ (x.2.headD 0).toNat % 32 = 7 := by
    intro x hx
    obtain ⟨h4, h5, h6⟩ := (hwith _ _).mp (hmem x hx)
    obtain ⟨h7, h8⟩ := hids _ h4
    constructor
    · intro h9
      rcases h5 with h5 | h5
      · exact h5
      · rw [h8 h5, Option.some.injEq] at h6
        exact absurd (h9.symm.trans h6.symm) hab
    · intro h9
      rw [h7 h9, Option.some.injEq] at h6
      exact h6.symm
  have hk8 : ∀ x ∈ sets, x.1 = b ↔ (x.2.headD 0).toNat % 32 = 8 := by
    intro x hx
    obtain ⟨h4, h5, h6⟩ := (hwith _ _).mp (hmem x hx)
    obtain ⟨h7, h8⟩ := hids _ h4
    constructor
    · intro h9
      rcases h5 with h5 | h5
      · rw [h7 h5, Option.some.injEq] at h6
        exact absurd (h6.trans h9) hab
      · exact h5
    · intro h9
      rw [h8 h9, Option.some.injEq] at h6
      exact h6.symm
  have hw7 : setsWith (avc psId cea decode) a (nalsOf (ps ++ [p])) = (nalsOf (ps ++ [p])).filter fun n => (n.headD 0).toNat % 32 = 7 := by
    apply List.filter_congr
    intro n hn
    apply decide_eq_decide.mpr
    have hsave : (avc psId cea decode).save = [7, 8] := rfl
    have hps : (avc psId cea decode).psId = psId := rfl
    simp only [htype, hsave, hps, List.mem_cons, List.not_mem_nil, or_false]
    obtain ⟨h7, h8⟩ := hids n hn
    constructor
    · rintro ⟨h5 | h5, h6⟩
      · exact h5
      · rw [h8 h5, Option.some.injEq] at h6
        exact absurd h6.symm hab
    · exact fun h5 => ⟨.inl h5, h7 h5⟩
  have hw8 : setsWith (avc psId cea decode) b (nalsOf (ps ++ [p])) = (nalsOf (ps ++ [p])).filter fun n => (n.headD 0).toNat % 32 = 8 := by
    apply List.filter_congr
    intro n hn
    apply decide_eq_decide.mpr
    have hsave : (avc psId cea decode).save = [7, 8] := rfl
    have hps : (avc psId cea decode).psId = psId := rfl
    simp only [htype, hsave, hps, List.mem_cons, List.not_mem_nil, or_false]
    obtain ⟨h7, h8⟩ := hids n hn
    constructor
    · rintro ⟨h5 | h5, h6⟩
      · rw [h7 h5, Option.some.injEq] at h6
        exact absurd h6 hab
      · exact h5
    · exact fun h5 => ⟨.inr h5, h8 h5⟩
  have h3' : avcMedia decode (sets.map Prod.snd) = some (i.width, i.height, i.extra) := h3
  simp only [avcMedia, pick_find sets h1.ids a 7 hk7, pick_find sets h1.ids b 8 hk8, h1.last] at h3'
  rw [hw7, hw8] at h3'
  split at h3'
  · rename_i sps pps e1 e2
    split at h3'
    · cases h3'
    · rename_i w hgt pr x l hd
      rw [Option.some.injEq, Prod.mk.injEq, Prod.mk.injEq] at h3'
      exact ⟨sps, pps, w, hgt, pr, x, l, i, h2, e1, e2, hd, h3'.1.symm, h3'.2.1.symm, h3'.2.2.symm⟩
  · cases h3'

end Verif.TsKmp
