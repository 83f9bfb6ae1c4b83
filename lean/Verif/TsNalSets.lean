import Verif.TsNalFrames

/-!
# C79: parameter sets are announced
-/

namespace Verif.TsKmp

open NalSpec (cut)

/-- PES packets one after the other: the buffers, and the times. -/
def runVideo (c : Codec) : Track → List (Chain × Int × Int) → Res Track
  | t, [] => .ok t
  | t, p :: ps => videoPes c t p.1 p.2.1 p.2.2 >>= fun t => runVideo c t ps

/-- The NAL units of PES packets. -/
def nalsOf (ps : List (Chain × Int × Int)) : List (List UInt8) := ps.flatMap fun p => cut 0 none p.1.flatten

/-- The parameter sets with an id. -/
def setsWith (c : Codec) (id : Nat) (ns : List (List UInt8)) : List (List UInt8) :=
  ns.filter fun n => c.type n ∈ c.save ∧ c.psId (n.take 128) = some id

/-- `sets` has, for every id, the last of the parameter sets with this id. -/
structure Latest (c : Codec) (ns : List (List UInt8)) (sets : List (Nat × List UInt8)) : Prop where
  ids : (sets.map Prod.fst).Nodup
  last : ∀ id, (sets.find? (fun x => x.1 = id)).map Prod.snd = (setsWith c id ns).getLast?

/-- The last media info that was written is `i`. -/
def LastInfo (out : List Out) (i : Info) : Prop :=
  ∃ pre suf, out = pre ++ Out.info i :: suf ∧ ∀ x ∈ suf, ∀ j, x ≠ Out.info j

structure Inv (c : Codec) (ns : List (List UInt8)) (t : Track) : Prop where
  latest : Latest c ns t.saved
  info : t.sent = true → ∃ i, LastInfo t.out i ∧ c.media (t.saved.map Prod.snd) = some (i.width, i.height, i.extra)

theorem find_replace (id id' : Nat) (n : List UInt8) (l : List (Nat × List UInt8)) :
    (replace id n l).find? (fun x => x.1 = id') =
      if id' = id then (l.find? (fun x => x.1 = id)).map (fun _ => (id, n)) else l.find? (fun x => x.1 = id') := by
  induction l with
  | nil => split <;> rfl
  | cons x xs ih =>
    rw [replace]
    by_cases hx : x.1 = id
    · rw [if_pos hx]
      by_cases hi : id' = id
      · rw [if_pos hi, List.find?_cons_of_pos (by simp [hi]), List.find?_cons_of_pos (by simp [hx])]
        rfl
      · rw [if_neg hi, List.find?_cons_of_neg (by simp; omega), List.find?_cons_of_neg (by simp; omega)]
    · rw [if_neg hx]
      by_cases hi : id' = id
      · rw [if_pos hi] at ih ⊢
        rw [List.find?_cons_of_neg (by simp; omega), List.find?_cons_of_neg (by simp; omega), ih]
      · rw [if_neg hi] at ih ⊢
        by_cases hx' : x.1 = id'
        · rw [List.find?_cons_of_pos (by simp [hx']), List.find?_cons_of_pos (by simp [hx'])]
        · rw [List.find?_cons_of_neg (by simp [hx']), List.find?_cons_of_neg (by simp [hx']), ih]

theorem map_replace (id : Nat) (n : List UInt8) (l : List (Nat × List UInt8)) : (replace id n l).map Prod.fst = l.map Prod.fst := by
  induction l with
  | nil => rfl
  | cons x xs ih =>
    rw [replace]
    split
    · rename_i h
      simp [h]
    · simp [ih]

theorem setsWith_append (c : Codec) (id : Nat) (a b : List (List UInt8)) : setsWith c id (a ++ b) = setsWith c id a ++ setsWith c id b := by
  simp [setsWith]

theorem latest_other {c : Codec} {ns : List (List UInt8)} {sets : List (Nat × List UInt8)} {n : List UInt8} (h : Latest c ns sets)
    (hn : ∀ id, setsWith c id [n] = []) : Latest c (ns ++ [n]) sets := by
  refine ⟨h.ids, fun id => ?_⟩
  rw [setsWith_append, hn, List.append_nil]
  exact h.last id

theorem latest_set {c : Codec} {ns : List (List UInt8)} {sets sets' : List (Nat × List UInt8)} {n : List UInt8} {id : Nat} (h : Latest c ns sets)
    (hs : c.type n ∈ c.save) (hid : c.psId (n.take 128) = some id) (hids : (sets'.map Prod.fst).Nodup)
    (hn : ∀ id', sets'.find? (fun x => x.1 = id') = if id' = id then some (id, n) else sets.find? (fun x => x.1 = id')) :
    Latest c (ns ++ [n]) sets' := by
  refine ⟨hids, fun id' => ?_⟩
  rw [hn, setsWith_append]
  by_cases hi : id' = id
  · have h1 : setsWith c id' [n] = [n] := by simp [setsWith, hs, hid, hi]
    rw [if_pos hi, h1]
    simp
  · have h1 : setsWith c id' [n] = [] := by
      simp only [setsWith, List.filter_cons, hid, List.filter_nil, Option.some.injEq]
      rw [if_neg]
      simp
      intro _ h2
      exact hi h2.symm
    rw [if_neg hi, h1, List.append_nil]
    exact h.last id'

theorem handle_inv {c : Codec} {ns : List (List UInt8)} {t t' : Track} {n : List UInt8} (h : Inv c ns t) (hh : handle c t n = .ok t') :
    Inv c (ns ++ [n]) t' ∧ t'.out = t.out := by
  have hsei : (seeSei c t n).saved = t.saved ∧ (seeSei c t n).sent = t.sent ∧ (seeSei c t n).out = t.out := by
    unfold seeSei
    split
    · split <;> exact ⟨rfl, rfl, rfl⟩
    · exact ⟨rfl, rfl, rfl⟩
  obtain ⟨e1, e2, e3⟩ := hsei
  rw [handle] at hh
  by_cases hs : c.type n ∈ c.save
  · rw [if_pos hs, keepPs] at hh
    split at hh
    · cases hh
    · rename_i id hid
      rw [e1] at hh
      split at hh
      · rename_i x hx
        have hx1 : x.1 = id := by simpa using List.find?_some hx
        by_cases he : n = x.2
        · rw [if_pos he] at hh
          cases hh
          refine ⟨⟨?_, ?_⟩, e3⟩
          · rw [e1]
            refine latest_set h.latest hs hid h.latest.ids fun id' => ?_
            by_cases hi : id' = id
            · rw [if_pos hi, hi, hx, ← hx1, he]
            · rw [if_neg hi]
          · rw [e1, e2, e3]
            exact h.info
        · rw [if_neg he] at hh
          cases hh
          refine ⟨⟨?_, fun h => (Bool.noConfusion h)⟩, e3⟩
          show Latest c (ns ++ [n]) (replace id n t.saved)
          refine latest_set h.latest hs hid (by rw [map_replace]; exact h.latest.ids) fun id' => ?_
          rw [find_replace, hx]
          rfl
      · rename_i hx
        split at hh
        · cases hh
        · cases hh
          refine ⟨⟨?_, fun h => (Bool.noConfusion h)⟩, e3⟩
          show Latest c (ns ++ [n]) (t.saved ++ [(id, n)])
          have hnot : ∀ x ∈ t.saved, x.1 ≠ id := by
            intro x hm
            have := List.find?_eq_none.mp hx x hm
            simpa using this
          refine latest_set h.latest hs hid ?_ fun id' => ?_
          · rw [List.map_append, List.nodup_append]
            refine ⟨h.latest.ids, by simp, ?_⟩
            intro a ha b hb
            obtain ⟨x, hm, rfl⟩ := List.mem_map.mp ha
            simp only [List.map_cons, List.map_nil, List.mem_singleton] at hb
            rw [hb]
            exact hnot x hm
          · rw [List.find?_append]
            by_cases hi : id' = id
            · rw [if_pos hi, hi, hx]
              simp
            · rw [if_neg hi]
              have : ([(id, n)] : List (Nat × List UInt8)).find? (fun x => x.1 = id') = none := by
                simp
                exact fun h => hi h.symm
              rw [this]
              simp
  · rw [if_neg hs] at hh
    cases hh
    refine ⟨⟨?_, ?_⟩, e3⟩
    · rw [e1]
      exact latest_other h.latest fun id => by simp [setsWith, hs]
    · rw [e1, e2, e3]
      exact h.info

theorem handleAll_inv {c : Codec} {ns ms : List (List UInt8)} {t t' : Track} (h : Inv c ns t) (hh : handleAll c t ms = .ok t') :
    Inv c (ns ++ ms) t' ∧ t'.out = t.out := by
  induction ms generalizing ns t with
  | nil =>
    cases hh
    rw [List.append_nil]
    exact ⟨h, rfl⟩
  | cons m ms ih =>
    rw [handleAll] at hh
    cases h1 : handle c t m with
    | ok t1 =>
      rw [h1, Res.bind_ok] at hh
      obtain ⟨h2, h3⟩ := handle_inv h h1
      obtain ⟨h4, h5⟩ := ih h2 hh
      rw [List.append_assoc] at h4
      exact ⟨h4, h5.trans h3⟩
    | err => rw [h1] at hh; cases hh
    | ub => rw [h1] at hh; cases hh

theorem lastInfo_frame {out : List Out} {i : Info} (h : LastInfo out i) (k : Bool) (a b : Int) (d : List UInt8) :
    LastInfo (out ++ [.frame k a b d]) i := by
  obtain ⟨pre, suf, h1, h2⟩ := h
  refine ⟨pre, suf ++ [.frame k a b d], by rw [h1]; simp, fun x hx j => ?_⟩
  rcases List.mem_append.mp hx with hx | hx
  · exact h2 x hx j
  · rw [List.mem_singleton.mp hx]
    intro h; cases h

/-- A PES packet: the invariant is kept, and when a frame is written the media info is the one of the parameter sets. -/
theorem video_inv {c : Codec} {ns ms : List (List UInt8)} {t t' : Track} {pts dts : Int} (h : Inv c ns t) (hh : videoNals c t ms pts dts = .ok t') :
    Inv c (ns ++ ms) t' ∧ ((t'.out = t.out) ∨ t'.sent = true) := by
  rw [videoNals] at hh
  cases h1 : handleAll c t ms with
  | err => rw [h1] at hh; cases hh
  | ub => rw [h1] at hh; cases hh
  | ok t1 =>
    rw [h1, Res.bind_ok] at hh
    obtain ⟨h2, h3⟩ := handleAll_inv h h1
    split at hh
    · cases hh
    · have hfin : ∀ t2 : Track, t2.saved = t1.saved → t2.sent = true → Inv c (ns ++ ms) t2 →
          ∀ d, (.ok { t2 with clock := t2.clock.step dts, out := t2.out ++ [d] } : Res Track) = .ok t' → (∀ i, d ≠ .info i) →
          Inv c (ns ++ ms) t' ∧ ((t'.out = t.out) ∨ t'.sent = true) := by
        intro t2 _ hsent hinv d hd hnot
        cases hd
        refine ⟨⟨hinv.latest, ?_⟩, .inr hsent⟩
        · intro _
          obtain ⟨i, h4, h5⟩ := hinv.info hsent
          refine ⟨i, ?_, h5⟩
          cases d with
          | info j => exact absurd rfl (hnot j)
          | frame k a b d => exact lastInfo_frame h4 k a b d
      cases hm : mediaInfo c t1 with
      | err => rw [hm] at hh; cases hh
      | ub => rw [hm] at hh; cases hh
      | ok o =>
        rw [hm, Res.bind_ok] at hh
        cases o with
        | none =>
          cases hh
          exact ⟨h2, .inl h3⟩
        | some t2 =>
          rw [mediaInfo] at hm
          split at hm
          · rename_i hsent
            cases hm
            exact hfin t1 rfl hsent h2 _ hh (fun i h => by cases h)
          · split at hm
            · cases hm
            · split at hm
              · cases hm
              · rename_i w hgt x hmed
                cases hm
                refine hfin { t1 with sent := true, out := t1.out ++ [.info { width := w, height := hgt, extra := x, cea := t1.cea }] } rfl rfl
                  ⟨h2.latest, fun _ => ⟨{ width := w, height := hgt, extra := x, cea := t1.cea }, ?_, hmed⟩⟩ _ hh (fun i h => by cases h)
                exact ⟨t1.out, [], rfl, fun x hx => (by cases hx)⟩

theorem run_inv {c : Codec} {ps : List (Chain × Int × Int)} (hne : ∀ p ∈ ps, ∀ b ∈ p.1, b ≠ []) {ns : List (List UInt8)} {t t' : Track}
    (h : Inv c ns t) (hh : runVideo c t ps = .ok t') : Inv c (ns ++ nalsOf ps) t' := by
  induction ps generalizing ns t with
  | nil =>
    cases hh
    simp only [nalsOf, List.flatMap_nil, List.append_nil]
    exact h
  | cons p ps ih =>
    rw [runVideo, videoPes_nals _ _ _ _ _ (hne p (List.mem_cons_self ..))] at hh
    cases h1 : videoNals c t (cut 0 none p.1.flatten) p.2.1 p.2.2 with
    | err => rw [h1] at hh; cases hh
    | ub => rw [h1] at hh; cases hh
    | ok t1 =>
      rw [h1, Res.bind_ok] at hh
      have h2 := ih (fun q hq => hne q (List.mem_cons_of_mem _ hq)) (video_inv h h1).1 hh
      rw [List.append_assoc] at h2
      exact h2

theorem init_inv (c : Codec) (tries : Nat) : Inv c [] { tries := tries } :=
  ⟨⟨List.nodup_nil, fun _ => rfl⟩, fun h => (Bool.noConfusion h)⟩

/-- C79: when a frame is written, the last media info before it was made of the parameter sets that were received last, those of the PES packet
of this frame included. -/
theorem parameter_sets_are_announced (c : Codec) (tries : Nat) (ps : List (Chain × Int × Int)) (p : Chain × Int × Int) (t t' : Track)
    (hne : ∀ q ∈ ps ++ [p], ∀ b ∈ q.1, b ≠ []) (h : runVideo c { tries := tries } ps = .ok t) (hp : videoPes c t p.1 p.2.1 p.2.2 = .ok t')
    (hout : t'.out ≠ t.out) :
    ∃ sets i, Latest c (nalsOf (ps ++ [p])) sets ∧ LastInfo t'.out i ∧ c.media (sets.map Prod.snd) = some (i.width, i.height, i.extra) := by
  have h1 := run_inv (fun q hq => hne q (List.mem_append_left _ hq)) (init_inv c tries) h
  rw [videoPes_nals _ _ _ _ _ (hne p (List.mem_append_right _ (List.mem_singleton.mpr rfl)))] at hp
  obtain ⟨h2, h3⟩ := video_inv h1 hp
  have hs : t'.sent = true := by
    rcases h3 with h3 | h3
    · exact absurd h3 hout
    · exact h3
  obtain ⟨i, h4, h5⟩ := h2.info hs
  refine ⟨t'.saved, i, ?_, h4, h5⟩
  have : nalsOf (ps ++ [p]) = [] ++ nalsOf ps ++ cut 0 none p.1.flatten := by simp [nalsOf]
  rw [this]
  exact h2.latest

end Verif.TsKmp
