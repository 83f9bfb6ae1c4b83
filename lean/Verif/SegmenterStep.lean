import Verif.SegmenterGood

/-!
# The phases of the creation of a segment
-/

namespace Verif.Segmenter

/-- A loop over tracks: `P c done todo a` holds at every point. -/
theorem forTracks_sat {α : Type} (f : Ctx → Track → α → Res (Ctx × Track × α)) (P : Ctx → List Track → List Track → α → Prop)
    (hs : ∀ c d t r a, P c d (t :: r) a → Sat (f c t a) fun x => P x.1 (d ++ [x.2.1]) r x.2.2) :
    ∀ (ts : List Track) (c : Ctx) (d : List Track) (a : α), P c d ts a →
      Sat (forTracks f c ts a) fun x => P x.1 (d ++ x.2.1) [] x.2.2 := by
  intro ts
  induction ts with
  | nil =>
    intro c d a h
    rw [forTracks, sat_ok, List.append_nil]
    exact h
  | cons t ts ih =>
    intro c d a h
    rw [forTracks]
    refine sat_bind (hs c d t ts a h) ?_
    rintro ⟨c', t', a'⟩ h'
    refine sat_bind (ih c' (d ++ [t']) a' h') ?_
    rintro ⟨c'', ts', a''⟩ h''
    rw [sat_ok]
    simpa using h''

/-- The number of pending frames. -/
def sz (ts : List Track) : Nat := (ts.map fun t : Track => t.fs.length).sum

theorem sz_mid (xs ys : List Track) (t : Track) : sz (xs ++ t :: ys) = sz xs + t.fs.length + sz ys := by
  simp [sz, Nat.add_assoc]

theorem length_ins {t t' : Track} {n : Nat} (h : t'.fs.map (·.i) = (t.fs.drop n).map (·.i)) : t'.fs.length = t.fs.length - n := by
  have := congrArg List.length h
  simpa using this

/-- What holds for the tracks of a channel. -/
def Tracks (lo k : Nat) (B NS : Prop) (c : Ctx) (ts : List Track) : Prop :=
  Bal c ts ∧ ∀ t ∈ ts, Good lo k B NS t

theorem good_mid {lo k : Nat} {B NS : Prop} {xs ys : List Track} {t t' : Track} (h : ∀ u ∈ xs ++ t :: ys, Good lo k B NS u)
    (h' : Good lo k B NS t') : ∀ u ∈ xs ++ t' :: ys, Good lo k B NS u := by
  intro u hu
  rcases List.mem_append.1 hu with hu | hu
  · exact h u (List.mem_append_left _ hu)
  · rcases List.mem_cons.1 hu with rfl | hu
    · exact h'
    · exact h u (List.mem_append_right _ (List.mem_cons_of_mem _ hu))

theorem mem_mid (xs ys : List α) (t : α) : t ∈ xs ++ t :: ys := List.mem_append_right _ List.mem_cons_self

/-! ## Preparation -/

theorem strip_cut {t : Track} (h : TInv t) (g : Cfg) (c : Ctx) : Cut t (stripCount g c t) := by
  unfold stripCount
  split
  · by_cases hv : t.media = .video
    · rw [if_pos hv]; exact cut_pos h hv (kfTrunc_mem _ _)
    · rw [if_neg hv]; exact cut_other hv (truncIndex_le _ _)
  · exact cut_zero h

theorem prepare_sat {lo k : Nat} {B NS : Prop} {c : Ctx} {ts : List Track} (h : Tracks lo k B NS c ts) (g : Cfg) :
    Sat (prepare g c ts) fun x => Tracks lo k B NS x.1 x.2.1 ∧ c.same x.1 ∧ sz x.2.1 ≤ sz ts := by
  unfold prepare
  have := forTracks_sat (prepTrack g)
    (fun c' d r (_ : Mask × Int) => Tracks lo k B NS c' (d ++ r) ∧ c.same c' ∧ sz (d ++ r) ≤ sz ts) ?_ ts c [] ({}, invalid) ?_
  · refine sat_mono this ?_
    rintro ⟨c', ts', a⟩ h'
    simpa using h'
  · rintro c' d t r a ⟨⟨hb, hg⟩, hc, hz⟩
    unfold prepTrack
    split
    · rw [sat_ok]
      refine ⟨?_, hc, ?_⟩ <;> simp only [List.append_assoc, List.cons_append, List.nil_append]
      · exact ⟨hb, hg⟩
      · exact hz
    · have ht := hg t (mem_mid d r t)
      obtain ⟨c2, t2, e, hb2, hc2, hi2, hk2⟩ := removeFrames_ok hb ht.inv (strip_cut ht.inv g c') true
      rw [e, Res.bind_ok, sat_ok]
      simp only [List.append_assoc, List.cons_append, List.nil_append]
      refine ⟨⟨hb2, good_mid hg (good_drop ht hi2 hk2)⟩, Ctx.same_trans hc hc2, ?_⟩
      rw [sz_mid] at hz ⊢
      have := length_ins hk2.ins
      omega
  · exact ⟨h, Ctx.same_refl c, Nat.le_refl _⟩

/-! ## Indexes -/

/-- The indexes of a track are valid for its frames. -/
def Fresh (t : Track) : Prop :=
  t.copyIndex ≠ 0 → Cut t t.removeIndex ∧ t.copyIndex ≤ t.fs.length ∧ (t.media ≠ .subtitle → t.removeIndex = t.copyIndex)

/-- The time of the last segment is the same, and a new period stays a new period. -/
def Ctx.up (c c' : Ctx) : Prop := c'.lastEnd = c.lastEnd ∧ (c.force = true → c'.force = true)

theorem Ctx.up_refl (c : Ctx) : c.up c := ⟨rfl, fun h => h⟩

theorem Ctx.up_trans {a b c : Ctx} (h : a.up b) (h' : b.up c) : a.up c := ⟨h'.1.trans h.1, fun x => h'.2 (h.2 x)⟩

theorem Ctx.same_up {a b : Ctx} (h : a.same b) : a.up b := by
  obtain ⟨_, h2, h3, _⟩ := h
  exact ⟨h2, fun x => by rw [h3]; exact x⟩

theorem good_index {lo k : Nat} {B NS : Prop} {t : Track} (h : Good lo k B NS t) (rm cp : Nat) :
    Good lo k B NS { t with removeIndex := rm, copyIndex := cp } :=
  ⟨⟨h.inv.parts, h.inv.kparts, h.inv.count, h.inv.le, h.inv.start, h.inv.last, h.inv.head, h.inv.split, h.inv.pts, h.inv.keyPts,
    h.inv.kfs, h.inv.pending, h.inv.splitCount, h.inv.minSplit⟩, h.cons, h.segs, h.order, h.near, h.nextId, h.nosub⟩

theorem splitIndex_cut {t : Track} (h : TInv t) (g : Cfg) (force : Bool) (start target : Int) :
    Cut t (splitIndex g force start target t) := by
  unfold splitIndex
  simp only
  split
  · rw [h.count]; exact cut_all t
  · split
    · exact cut_zero h
    · by_cases hv : t.media = .video
      · rw [if_pos hv]; exact cut_pos h hv (kfIndex_mem _ _)
      · rw [if_neg hv]; exact cut_other hv (getIndex_le _ _)

theorem splitTrack_ok {lo k : Nat} {B NS : Prop} {t : Track} (h : Good lo k B NS t) (g : Cfg) (force : Bool) (start target : Int) (c : Ctx)
    (a : Mask × Bool) : ∃ c' rm cp a', splitTrack g force start target c t a = .ok (c', { t with removeIndex := rm, copyIndex := cp }, a') ∧
      (c' = c ∨ c' = { c with force := true }) ∧ Fresh { t with removeIndex := rm, copyIndex := cp } := by
  unfold splitTrack
  split
  · exact ⟨c, t.removeIndex, 0, a, rfl, .inl rfl, fun x => absurd rfl x⟩
  · split
    · rename_i hs
      obtain ⟨h1, h2⟩ := subIndexes_le target t.fs
      exact ⟨c, _, _, _, rfl, .inl rfl, fun _ => ⟨cut_other (by simp [hs]) (Nat.le_trans h1 h2), h2, fun x => absurd hs x⟩⟩
    · have hc := splitIndex_cut h.inv g force start target
      have hf : Fresh { t with removeIndex := splitIndex g force start target t, copyIndex := splitIndex g force start target t } :=
        fun _ => ⟨hc, hc.1, fun _ => rfl⟩
      simp only
      split
      · split
        · exact ⟨c, _, _, _, rfl, .inl rfl, hf⟩
        · exact ⟨c, _, _, _, rfl, .inl rfl, hf⟩
      · split
        · exact ⟨_, _, _, _, rfl, .inr rfl, hf⟩
        · exact ⟨c, _, _, _, rfl, .inl rfl, hf⟩

theorem setSplit_sat {lo k : Nat} {B NS : Prop} {c : Ctx} {ts : List Track} (h : Tracks lo k B NS c ts) (g : Cfg) (start target : Int) :
    Sat (setSplit g c ts start target) fun x => Tracks lo k B NS x.1 x.2.1 ∧ c.up x.1 ∧ sz x.2.1 = sz ts ∧ ∀ t ∈ x.2.1, Fresh t := by
  unfold setSplit
  have := forTracks_sat (splitTrack g c.force start target)
    (fun c' d r (_ : Mask × Bool) => Tracks lo k B NS c' (d ++ r) ∧ c.up c' ∧ sz (d ++ r) = sz ts ∧ ∀ t ∈ d, Fresh t) ?_ ts c [] ({}, false) ?_
  · refine sat_mono this ?_
    rintro ⟨c', ts', a⟩ h'
    simpa using h'
  · rintro c' d t r a ⟨⟨hb, hg⟩, hc, hz, hf⟩
    have ht := hg t (mem_mid d r t)
    obtain ⟨c2, rm, cp, a2, e, hc2, hf2⟩ := splitTrack_ok ht g c.force start target c' a
    rw [e, sat_ok]
    simp only [List.append_assoc, List.cons_append, List.nil_append]
    refine ⟨⟨?_, good_mid hg (good_index ht rm cp)⟩, Ctx.up_trans hc ?_, ?_, ?_⟩
    · have := bal_congr (t' := { t with removeIndex := rm, copyIndex := cp }) hb rfl
      rcases hc2 with rfl | rfl
      · exact this
      · exact this
    · rcases hc2 with rfl | rfl
      · exact Ctx.up_refl _
      · exact ⟨rfl, fun _ => rfl⟩
    · rw [← hz, sz_mid, sz_mid]; rfl
    · intro u hu
      rcases List.mem_append.1 hu with hu | hu
      · exact hf u hu
      · rw [List.mem_singleton.1 hu]; exact hf2
  · exact ⟨h, Ctx.up_refl c, rfl, by simp⟩

/-! ## Disposal -/

theorem dispose_sat {lo k : Nat} {B NS : Prop} {c : Ctx} {ts : List Track} (h : Tracks lo k B NS c ts) (hf : ∀ t ∈ ts, Fresh t) (stop : Int) :
    Sat (dispose c ts stop) fun x => Tracks lo k B NS x.1 x.2 ∧ (c.up x.1 ∨ (x.1.lastEnd = stop ∧ x.1.force = true)) ∧ (NS → sz x.2 < sz ts) := by
  unfold dispose
  have := forTracks_sat disposeTrack
    (fun c' d r (a : Bool × Bool) => Tracks lo k B NS c' (d ++ r) ∧ c.up c' ∧ sz (d ++ r) ≤ sz ts ∧ (a.1 = true → NS → sz (d ++ r) < sz ts) ∧
      ∀ t ∈ r, Fresh t) ?_ ts c [] (false, false) ?_
  · refine sat_bind this ?_
    rintro ⟨c', ts', a1, a2⟩ ⟨h1, h2, _, h4, _⟩
    simp only [List.nil_append, List.append_nil] at h1 h2 h4
    cases a1 with
    | false => simp
    | true =>
      cases a2 with
      | false =>
        simp only [Bool.not_true, Bool.not_false, if_true, Bool.false_eq_true, if_false, sat_ok]
        exact ⟨h1, .inl h2, h4 rfl⟩
      | true =>
        simp only [Bool.not_true, Bool.false_eq_true, if_false, sat_ok]
        exact ⟨h1, .inr (by simp), h4 rfl⟩
  · rintro c' d t r a ⟨⟨hb, hg⟩, hc, hz, hlt, hfr⟩
    unfold disposeTrack
    have hfr' : ∀ u ∈ r, Fresh u := fun u hu => hfr u (List.mem_cons_of_mem _ hu)
    split
    · rw [sat_ok]
      simp only [List.append_assoc, List.cons_append, List.nil_append]
      exact ⟨⟨hb, hg⟩, hc, hz, hlt, hfr'⟩
    · rename_i hcp
      have ht := hg t (mem_mid d r t)
      obtain ⟨f1, f2, f3⟩ := hfr t List.mem_cons_self hcp
      obtain ⟨c2, t2, e, hb2, hc2, hi2, hk2⟩ := removeFrames_ok hb ht.inv f1 true
      simp only [e, Res.bind_ok, sat_ok, List.append_assoc, List.cons_append, List.nil_append]
      have hl := length_ins hk2.ins
      refine ⟨⟨hb2, good_mid hg (good_drop ht hi2 hk2)⟩, Ctx.up_trans hc (Ctx.same_up hc2), ?_, ?_, hfr'⟩
      · rw [sz_mid] at hz ⊢
        omega
      · intro _ ns
        have := f3 (ht.nosub ns)
        rw [sz_mid] at hz ⊢
        omega
  · exact ⟨h, Ctx.up_refl c, Nat.le_refl _, by simp, hf⟩

/-! ## Creation -/

theorem trackCreate_sat {lo k : Nat} {B NS : Prop} {c : Ctx} {xs ys : List Track} {t : Track} (hb : Bal c (xs ++ t :: ys))
    (h : Good lo k B NS t) (hlo : lo ≤ k) (hf : Fresh t) (h0 : t.copyIndex ≠ 0) (env : Env) (n : Nat) :
    Sat (trackCreate env k n c t) fun x => Bal x.1 (xs ++ x.2 :: ys) ∧ c.up x.1 ∧ Good lo (k + 1) B NS x.2 ∧
      x.2.media = t.media ∧ x.2.fs.length = t.fs.length - t.removeIndex := by
  unfold trackCreate
  split
  · simp
  · obtain ⟨f1, f2, f3⟩ := hf h0
    obtain ⟨s, shift, b, e, hd, ht, _, _⟩ := frameCopy_ok t.media t.shift (Nat.pos_of_ne_zero h0) f2
    simp only [e]
    obtain ⟨c1, hc1⟩ : ∃ c1, (if b = true then { (if env.info n = .changed ∧ t.media ≠ .subtitle then { c with force := true } else c) with
      nextForce := true } else (if env.info n = .changed ∧ t.media ≠ .subtitle then { c with force := true } else c)) = c1 := ⟨_, rfl⟩
    have hup : c.up c1 ∧ c1.nInactive = c.nInactive ∧ c1.nPending = c.nPending ∧ c1.nReady = c.nReady := by
      rw [← hc1]
      refine ⟨⟨?_, ?_⟩, ?_, ?_, ?_⟩ <;> split <;> split <;> first | rfl | exact fun x => x | exact fun _ => rfl
    rw [hc1]
    have hi1 : TInv { t with shift, hasLast := true, log := t.log ++ [.seg k ((t.fs.take t.copyIndex).map (·.i)) s] } :=
      ⟨h.inv.parts, h.inv.kparts, h.inv.count, h.inv.le, h.inv.start, h.inv.last, h.inv.head, h.inv.split, h.inv.pts, h.inv.keyPts,
        h.inv.kfs, h.inv.pending, h.inv.splitCount, h.inv.minSplit⟩
    have hb1 : Bal c1 (xs ++ { t with shift, hasLast := true, log := t.log ++ [.seg k ((t.fs.take t.copyIndex).map (·.i)) s] } :: ys) := by
      have := bal_congr (t' := { t with shift, hasLast := true, log := t.log ++ [.seg k ((t.fs.take t.copyIndex).map (·.i)) s] }) hb rfl
      unfold Bal at this ⊢
      rw [hup.2.1, hup.2.2.1, hup.2.2.2]
      exact this
    obtain ⟨c2, t2, e2, hb2, hc2, hi2, hk2⟩ := removeFrames_ok hb1 hi1 (n := t.removeIndex) f1 false
    rw [e2, sat_ok]
    exact ⟨hb2, Ctx.up_trans hup.1 (Ctx.same_up hc2), good_seg h hlo (Nat.pos_of_ne_zero h0) f2 f3 hi2 hd ht hk2, hk2.media, length_ins hk2.ins⟩

theorem createTrack_sat {lo k : Nat} {B NS : Prop} {c : Ctx} {xs ys : List Track} {t : Track} (hb : Bal c (xs ++ t :: ys))
    (h : Good lo k B NS t) (hlo : lo ≤ k) (hf : Fresh t) (env : Env) (a : Nat × Mask) :
    Sat (createTrack env k c t a) fun x => Bal x.1 (xs ++ x.2.1 :: ys) ∧ c.up x.1 ∧ Good lo (k + 1) B NS x.2.1 ∧
      x.2.1.fs.length ≤ t.fs.length ∧ (x.2.2.2 = a.2 ∨ (NS → x.2.1.fs.length < t.fs.length)) := by
  unfold createTrack
  split
  · split
    · rw [sat_ok]
      exact ⟨hb, Ctx.up_refl c, h.mono (Nat.le_succ _), Nat.le_refl _, .inl rfl⟩
    · rw [sat_ok]
      have hg : Good lo (k + 1) B NS { t with hasLast := false } :=
        ⟨⟨h.inv.parts, h.inv.kparts, h.inv.count, h.inv.le, h.inv.start, h.inv.last, h.inv.head, h.inv.split, h.inv.pts, h.inv.keyPts,
          h.inv.kfs, h.inv.pending, h.inv.splitCount, h.inv.minSplit⟩, h.cons, (h.mono (Nat.le_succ _)).segs, h.order, h.near, h.nextId, h.nosub⟩
      have hb' := bal_congr (t' := { t with hasLast := false }) hb rfl
      refine ⟨?_, ?_, hg, Nat.le_refl _, .inl rfl⟩
      · simp only
        split <;> exact hb'
      · simp only
        split
        · exact ⟨rfl, fun _ => rfl⟩
        · exact Ctx.up_refl c
  · rename_i h0
    obtain ⟨c1, hc1⟩ : ∃ c1, (if t.media ≠ .subtitle ∧ (!t.hasLast) = true ∧ env.usedFiller a.1 = true then { c with force := true } else c) = c1 :=
      ⟨_, rfl⟩
    have hup : c.up c1 ∧ Bal c1 (xs ++ t :: ys) := by
      rw [← hc1]
      split
      · exact ⟨⟨rfl, fun _ => rfl⟩, hb⟩
      · exact ⟨Ctx.up_refl c, hb⟩
    simp only [hc1]
    refine sat_bind (trackCreate_sat hup.2 h hlo hf h0 env a.1) ?_
    rintro ⟨c2, t2⟩ ⟨h1, h2, h3, h4, h5⟩
    rw [sat_ok]
    refine ⟨h1, Ctx.up_trans hup.1 h2, h3, ?_, .inr ?_⟩
    · show t2.fs.length ≤ _
      dsimp only at h5
      omega
    · intro ns
      obtain ⟨_, f2, f3⟩ := hf h0
      have := f3 (h.nosub ns)
      show t2.fs.length < _
      dsimp only at h5
      omega

theorem createSegment_sat {lo k : Nat} {B NS : Prop} {c : Ctx} {ts : List Track} (h : Tracks lo k B NS c ts) (hf : ∀ t ∈ ts, Fresh t)
    (hlo : lo ≤ k) (env : Env) :
    Sat (createSegment env k c ts) fun x => Tracks lo (k + 1) B NS x.1 x.2 ∧ c.up x.1 ∧ (NS → sz x.2 < sz ts) := by
  unfold createSegment
  have := forTracks_sat (createTrack env k)
    (fun c' d r (a : Nat × Mask) => Bal c' (d ++ r) ∧ (∀ t ∈ d, Good lo (k + 1) B NS t) ∧ (∀ t ∈ r, Good lo k B NS t ∧ Fresh t) ∧ c.up c' ∧
      sz (d ++ r) ≤ sz ts ∧ (a.2.isEmpty = false → NS → sz (d ++ r) < sz ts)) ?_ ts c [] (0, {}) ?_
  · refine sat_bind this ?_
    rintro ⟨c', ts', a⟩ ⟨h1, h2, _, h4, _, h6⟩
    simp only [List.nil_append, List.append_nil] at h1 h2 h4 h6 ⊢
    split
    · simp
    · rename_i hne
      have h6 := h6 (by simpa using hne)
      have hc : ∃ c1, (if env.fillerAdded = true then { c' with force := true } else c') = c1 ∧ c'.up c1 ∧ Bal c1 ts' := by
        refine ⟨_, rfl, ?_⟩
        split
        · exact ⟨⟨rfl, fun _ => rfl⟩, h1⟩
        · exact ⟨Ctx.up_refl _, h1⟩
      obtain ⟨c1, e, hc1, hb1⟩ := hc
      rw [e]
      split
      · simp
      · rw [sat_ok]; exact ⟨⟨hb1, h2⟩, Ctx.up_trans h4 hc1, h6⟩
      · rw [sat_ok]; exact ⟨⟨hb1, h2⟩, Ctx.up_trans h4 ⟨hc1.1, fun _ => rfl⟩, h6⟩
  · rintro c' d t r a ⟨hb, hd, hr, hc, hz, hlt⟩
    obtain ⟨ht, hft⟩ := hr t List.mem_cons_self
    refine sat_mono (createTrack_sat hb ht hlo hft env a) ?_
    rintro ⟨c2, t2, a2⟩ ⟨h1, h2, h3, h4, h5⟩
    simp only [List.append_assoc, List.cons_append, List.nil_append] at h1 h2 h3 h4 h5 ⊢
    refine ⟨h1, ?_, fun u hu => hr u (List.mem_cons_of_mem _ hu), Ctx.up_trans hc h2, ?_, ?_⟩
    · intro u hu
      rcases List.mem_append.1 hu with hu | hu
      · exact hd u hu
      · rw [List.mem_singleton.1 hu]; exact h3
    · rw [sz_mid] at hz ⊢
      omega
    · intro ha ns
      rw [sz_mid] at hz hlt ⊢
      rcases h5 with e | h5
      · have := hlt (by rw [← e]; exact ha) ns
        omega
      · have := h5 ns
        omega
  · exact ⟨h.1, by simp, fun t ht => ⟨h.2 t ht, hf t ht⟩, Ctx.up_refl c, Nat.le_refl _, by simp [Mask.isEmpty]⟩

end Verif.Segmenter
