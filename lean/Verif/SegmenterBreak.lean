import Verif.SegmenterJump

/-!
# Discontinuities start a period: the invariant of a channel
-/

namespace Verif.Segmenter

/-- What holds for the log of a track and its pending frames. `k` is the index of the next segment, `N` the segments that start
a period. -/
structure Brk (fwd back k : Nat) (N : Nat → Prop) (t : Track) : Prop where
  calm : CalmF t.media fwd back t.fs
  segs : t.media ≠ .subtitle → ∀ j src s, Ev.seg j src s ∈ t.log → Calm t.media fwd back src
  queue : t.media ≠ .subtitle → (hist fwd back t.log).queue = t.fs.map (·.i)
  gap : t.media ≠ .subtitle → (hist fwd back t.log).gap = true → Marked t
  last : ∀ j, (hist fwd back t.log).last = some j → j < k ∧ (j + 1 = k → t.hasLast = true)
  breaks : t.media ≠ .subtitle → ∀ j ∈ (hist fwd back t.log).breaks, N j

theorem brk_mono {fwd back k : Nat} {N N' : Nat → Prop} {t : Track} (h : Brk fwd back k N t) (hN : ∀ j, N j → N' j) : Brk fwd back k N' t :=
  ⟨h.calm, h.segs, h.queue, h.gap, h.last, fun hm j hj => hN j (h.breaks hm j hj)⟩

/-- Only fields that do not matter differ. -/
theorem brk_congr {fwd back k : Nat} {N : Nat → Prop} {t t' : Track} (h : Brk fwd back k N t) (h1 : t'.media = t.media) (h2 : t'.fs = t.fs)
    (h3 : t'.log = t.log) (h4 : t.nextSplit = true → t'.nextSplit = true) (h5 : t'.hasLast = t.hasLast) : Brk fwd back k N t' := by
  refine ⟨?_, ?_, ?_, ?_, ?_, ?_⟩
  · rw [h1, h2]; exact h.calm
  · rw [h1, h3]; exact h.segs
  · rw [h1, h2, h3]; exact h.queue
  · rw [h1, h3]
    intro hm hg
    have := h.gap hm hg
    unfold Marked at this ⊢
    rw [h2]
    cases hfs : t.fs with
    | nil => rw [hfs] at this; exact h4 this
    | cons f fs => rw [hfs] at this; exact this
  · rw [h3, h5]; exact h.last
  · rw [h1, h3]; exact h.breaks

theorem calm_kept {m : Media} {fwd back : Nat} {fs fs' : List Frame} {n : Nat} (h : CalmF m fwd back fs)
    (h1 : fs'.map (·.i) = (fs.drop n).map (·.i)) (h2 : fs'.drop 1 = (fs.drop n).drop 1) : CalmF m fwd back fs' :=
  calmF_tail _ _ h2.symm h1.symm (calmF_drop n _ h)

/-- Frames are dropped. -/
theorem brk_drop {fwd back k : Nat} {N : Nat → Prop} {t t' : Track} {n : Nat} (h : Brk fwd back k N t) (hn : n ≤ t.fs.length) (hk : Kept n true t t') :
    Brk fwd back k N t' := by
  by_cases h0 : n = 0
  · rw [hk.zero h0]; exact h
  · have hl : t'.log = t.log ++ [.drop ((t.fs.take n).map (·.i))] := by rw [hk.log, if_pos ⟨rfl, h0⟩]
    refine ⟨?_, ?_, ?_, ?_, ?_, ?_⟩
    · rw [hk.media]; exact calm_kept h.calm hk.ins hk.tail
    · rw [hk.media, hl]
      intro hm j src s hj
      exact h.segs hm j src s (by simpa using hj)
    · rw [hk.media, hl, hist_push]
      intro hm
      show List.drop _ (hist fwd back t.log).queue = _
      rw [h.queue hm, hk.ins, List.length_map, List.length_take, Nat.min_eq_left hn, List.map_drop]
    · intro _ _; exact hk.mark rfl h0
    · rw [hl, hist_push, hk.hasLast]; exact h.last
    · rw [hk.media, hl, hist_push]; exact h.breaks

/-- A frame is accepted. -/
theorem pushFrame_fs (g : Cfg) {t : Track} (h : TInv t) (i : In) : (pushFrame g t i).fs = t.fs ++ [newFrame g t i] :=
  (push_ok (n := framePart) (by decide) (newFrame g t i) h.parts).2

theorem brk_push {fwd back k : Nat} {N : Nat → Prop} {g : Cfg} {t : Track} {i : In} (h : Brk fwd back k N t) (hi : TInv t)
    (hF : g.fwdJump ≤ fwd) (hK : g.backJump ≤ back) (hk : t.media = .video → t.frameCount = 0 → i.key = true) :
    Brk fwd back k N (pushFrame g t i) := by
  have hfs := pushFrame_fs g hi i
  have hni : (newFrame g t i).i = i := by unfold newFrame; split <;> rfl
  have hl : (pushFrame g t i).log = t.log ++ [.acc i] := rfl
  refine ⟨?_, ?_, ?_, ?_, ?_, ?_⟩
  · rw [hfs]
    refine calmF_push _ _ h.calm ?_
    intro a ha hanch hs
    have hlast := hi.last a ha
    have hcount : t.frameCount > 0 := by
      rw [hi.count]
      cases hx : t.fs with
      | nil => rw [hx] at ha; cases ha
      | cons x xs => simp
    have hst : starts t i = true := by
      unfold anchor at hanch
      rw [hni] at hanch
      exact hanch
    unfold newFrame at hs
    rw [if_pos hst] at hs
    simp only [Bool.or_eq_false_iff] at hs
    have hj := hs.2
    unfold jumps at hj
    rw [hni]
    simp only [decide_eq_true hcount, Bool.true_and, Bool.or_eq_false_iff, decide_eq_false_iff_not] at hj
    unfold far
    simp only [Bool.or_eq_false_iff, decide_eq_false_iff_not]
    rw [hlast] at hj
    omega
  · rw [hl]
    intro hm j src s hj
    exact h.segs hm j src s (by simpa using hj)
  · rw [hl, hist_push, hfs]
    intro hm
    show (hist fwd back t.log).queue ++ [i] = _
    rw [h.queue hm, List.map_append, List.map_cons, hni, List.map_nil]
  · rw [hl, hist_push]
    intro hm hg
    have hm0 : Marked t := h.gap hm hg
    unfold Marked at hm0 ⊢
    rw [hfs]
    cases hx : t.fs with
    | nil =>
      rw [hx] at hm0
      have hst : starts t i = true := by
        unfold starts
        by_cases hv : t.media = .video
        · rw [hk hv (by rw [hi.count, hx]; rfl)]; simp
        · simp [hv]
      show (newFrame g t i).split = true
      unfold newFrame
      rw [if_pos hst]
      simp only at hm0
      simp [hm0]
    | cons f fs => rw [hx] at hm0; exact hm0
  · rw [hl, hist_push]; exact h.last
  · rw [hl, hist_push]; exact h.breaks

/-- The pending frames are discarded. -/
theorem brk_reset {fwd back k : Nat} {N : Nat → Prop} {t t' : Track} (h : Brk fwd back k N t) (hm : t'.media = t.media) (hf : t'.fs = [])
    (hl : t'.log = t.log ++ [.reset (t.fs.map (·.i))]) (hh : t'.hasLast = t.hasLast) : Brk fwd back k N t' := by
  refine ⟨?_, ?_, ?_, ?_, ?_, ?_⟩
  · rw [hf]; trivial
  · rw [hm, hl]
    intro hm j src s hj
    exact h.segs hm j src s (by simpa using hj)
  · rw [hl, hist_push, hf]; intro _; rfl
  · rw [hl, hist_push]; intro _ hg; simp [Hist.ev] at hg
  · rw [hl, hist_push, hh]; exact h.last
  · rw [hm, hl, hist_push]; exact h.breaks

theorem brk_jump {fwd back k : Nat} {N : Nat → Prop} {t : Track} (h : Brk fwd back k N t) (n : Nat) :
    Brk fwd back k N { t with nextId := n, log := t.log ++ [.jump n] } := by
  refine ⟨h.calm, ?_, ?_, ?_, ?_, ?_⟩
  · intro hm j src s hj
    exact h.segs hm j src s (by simpa using hj)
  · rw [hist_push]; exact h.queue
  · rw [hist_push]; exact h.gap
  · rw [hist_push]; exact h.last
  · rw [hist_push]; exact h.breaks

/-- The indexes of a track do not go over a split, and a segment that starts with a marked frame starts a period. -/
def Fresh' (c : Ctx) (t : Track) : Prop :=
  t.media ≠ .subtitle → t.copyIndex ≠ 0 →
    (∀ k f, t.fs[k + 1]? = some f → f.split = true → t.copyIndex ≤ k + 1) ∧
    ((∀ f ∈ t.fs.head?, f.split = true) → t.hasLast = true → c.force = true)

theorem brk_seg {fwd back k : Nat} {N : Nat → Prop} {P : Prop} {t t' : Track} {s : Segment} {shift : Nat} (h : Brk fwd back k N t)
    (hf : Fresh t) (c : Ctx) (hf' : Fresh' c t) (hc : c.force = true → P) (h0 : t.copyIndex ≠ 0)
    (hk : Kept t.removeIndex false { t with shift, hasLast := true, log := t.log ++ [.seg k ((t.fs.take t.copyIndex).map (·.i)) s] } t') :
    Brk fwd back (k + 1) (fun j => N j ∨ (j = k ∧ P)) t' := by
  have hm : t'.media = t.media := hk.media
  have hl : t'.log = t.log ++ [.seg k ((t.fs.take t.copyIndex).map (·.i)) s] := by rw [hk.log, if_neg (by simp)]
  have hins : t'.fs.map (·.i) = (t.fs.drop t.removeIndex).map (·.i) := hk.ins
  have htail : t'.fs.drop 1 = (t.fs.drop t.removeIndex).drop 1 := hk.tail
  obtain ⟨f1, f2, f3⟩ := hf h0
  have hlen : ((t.fs.take t.copyIndex).map (·.i)).length = t.copyIndex := by
    rw [List.length_map, List.length_take, Nat.min_eq_left f2]
  refine ⟨?_, ?_, ?_, ?_, ?_, ?_⟩
  · rw [hm]; exact calm_kept h.calm hins htail
  · rw [hm, hl]
    intro hms j src s' hj
    rcases List.mem_append.1 hj with hj | hj
    · exact h.segs hms j src s' hj
    · have e := List.mem_singleton.1 hj
      cases e
      exact calm_take _ _ h.calm (hf' hms h0).1
  · rw [hm, hl, hist_push]
    intro hms
    show List.drop _ (hist fwd back t.log).queue = _
    rw [h.queue hms, hlen, hins, f3 hms, List.map_drop]
  · rw [hm, hl, hist_push]
    intro hms hg
    replace hg : farNext fwd back ((t.fs.take t.copyIndex).map (·.i)) (List.drop ((t.fs.take t.copyIndex).map (·.i)).length (hist fwd back t.log).queue) = true := hg
    rw [h.queue hms, hlen, ← List.map_drop] at hg
    have hrm := f3 hms
    have hanch : ∀ f ∈ (t.fs.drop t.copyIndex).head?, anchor t.media f = true := by
      intro f hf
      rw [List.head?_drop, ← hrm] at hf
      exact f1.2 f hf
    have hs := calm_next _ _ h.calm hanch hg
    cases hd : t.fs.drop t.copyIndex with
    | nil => rw [hd] at hg; simp [farNext] at hg
    | cons f fs =>
      refine hk.head f ?_ (hs f (by rw [hd]; rfl))
      show f ∈ (t.fs.drop t.removeIndex).head?
      rw [hrm, hd]; rfl
  · rw [hl, hist_push]
    intro j hj
    replace hj : some k = some j := hj
    cases hj
    exact ⟨Nat.lt_succ_self _, fun _ => by rw [hk.hasLast]⟩
  · rw [hm, hl, hist_push]
    intro hms j hj
    replace hj : j ∈ (if (hist fwd back t.log).gap = true ∧ (hist fwd back t.log).last.map (· + 1) = some k then
      (hist fwd back t.log).breaks ++ [k] else (hist fwd back t.log).breaks) := hj
    split at hj
    · rename_i hg
      rcases List.mem_append.1 hj with hj | hj
      · exact .inl (h.breaks hms j hj)
      · refine .inr ⟨List.mem_singleton.1 hj, hc ((hf' hms h0).2 ?_ ?_)⟩
        · have := h.gap hms hg.1
          unfold Marked at this
          intro f hf
          cases hx : t.fs with
          | nil => rw [hx] at hf; cases hf
          | cons y ys =>
            rw [hx] at this hf
            simp at hf
            subst hf
            exact this
        · cases hx : (hist fwd back t.log).last with
          | none => rw [hx] at hg; simp at hg
          | some j' =>
            rw [hx] at hg
            simp at hg
            exact (h.last j' hx).2 hg.2
    · exact .inl (h.breaks hms j hj)

theorem brk_new (fwd back k : Nat) (N : Nat → Prop) (media : Media) (filler hasLast : Bool) (nextId : Nat) :
    Brk fwd back k N { media, filler, hasLast, nextId, log := [.jump nextId] } :=
  ⟨trivial, by simp, fun _ => rfl, by simp [hist, Hist.ev], by simp [hist, Hist.ev], by simp [hist, Hist.ev]⟩

/-! ## The phases -/

/-- The tracks of a channel. -/
def Brks (fwd back k : Nat) (N : Nat → Prop) (ts : List Track) : Prop := ∀ t ∈ ts, Brk fwd back k N t

theorem brk_mid {fwd back k : Nat} {N : Nat → Prop} {xs ys : List Track} {t t' : Track} (h : Brks fwd back k N (xs ++ t :: ys)) (h' : Brk fwd back k N t') :
    Brks fwd back k N (xs ++ t' :: ys) := by
  intro u hu
  rcases List.mem_append.1 hu with hu | hu
  · exact h u (List.mem_append_left _ hu)
  · rcases List.mem_cons.1 hu with rfl | hu
    · exact h'
    · exact h u (List.mem_append_right _ (List.mem_cons_of_mem _ hu))

theorem prepare_brk {lo k : Nat} {B NS : Prop} {fwd back : Nat} {N : Nat → Prop} {c : Ctx} {ts : List Track} (h : Tracks lo k B NS c ts)
    (hr : Brks fwd back k N ts) (g : Cfg) : Sat (prepare g c ts) fun x => Brks fwd back k N x.2.1 := by
  unfold prepare
  have := forTracks_sat (prepTrack g)
    (fun c' d r (_ : Mask × Int) => Tracks lo k B NS c' (d ++ r) ∧ Brks fwd back k N (d ++ r)) ?_ ts c [] ({}, invalid) ?_
  · refine sat_mono this ?_
    rintro ⟨c', ts', a⟩ h'
    simpa using h'.2
  · rintro c' d t r a ⟨⟨hb, hg⟩, hr⟩
    unfold prepTrack
    split
    · rw [sat_ok]
      refine ⟨?_, ?_⟩ <;> simp only [List.append_assoc, List.cons_append, List.nil_append]
      · exact ⟨hb, hg⟩
      · exact hr
    · have ht := hg t (mem_mid d r t)
      have hcut := strip_cut ht.inv g c'
      obtain ⟨c2, t2, e, hb2, hc2, hi2, hk2⟩ := removeFrames_ok hb ht.inv hcut true
      rw [e, Res.bind_ok, sat_ok]
      simp only [List.append_assoc, List.cons_append, List.nil_append]
      exact ⟨⟨hb2, good_mid hg (good_drop ht hi2 hk2)⟩, brk_mid hr (brk_drop (hr t (mem_mid d r t)) hcut.1 hk2)⟩
  · exact ⟨h, hr⟩

/-- A new period stays a new period. -/
theorem fresh'_up {c c' : Ctx} {t : Track} (h : Fresh' c t) (hc : c.up c') : Fresh' c' t :=
  fun a b => ⟨(h a b).1, fun x y => hc.2 ((h a b).2 x y)⟩

theorem splitTrack_fresh {t : Track} (h : TInv t) (g : Cfg) (force : Bool) (start target : Int) (c : Ctx) (a : Mask × Bool) :
    Sat (splitTrack g force start target c t a) fun x => Fresh' x.1 x.2.1 := by
  unfold splitTrack
  split
  · rw [sat_ok]
    intro _ h0
    exact absurd rfl h0
  · rename_i hne
    split
    · rename_i hs
      rw [sat_ok]
      intro hm
      exact absurd hs hm
    · have key : ∀ c', ((t.fs.head?.map (·.split)).getD false = true ∧ t.hasLast = true → c'.force = true) →
          Fresh' c' { t with removeIndex := splitIndex g force start target t, copyIndex := splitIndex g force start target t } := by
        intro c' hc' _ _
        refine ⟨fun k f hf hs => splitIndex_split h g force start target hf hs, fun hh hl => hc' ⟨?_, hl⟩⟩
        have hcount := h.count
        cases hx : t.fs with
        | nil => rw [hx] at hcount; exact absurd hcount hne
        | cons f fs =>
          have : f.split = true := hh f (by show f ∈ t.fs.head?; rw [hx]; rfl)
          simp [this]
      have key0 : splitIndex g force start target t = 0 → ∀ c',
          Fresh' c' { t with removeIndex := splitIndex g force start target t, copyIndex := splitIndex g force start target t } :=
        fun h0 c' _ h1 => absurd h0 h1
      simp only
      split
      · rename_i h0
        split
        · rw [sat_ok]; exact key0 h0 c
        · rw [sat_ok]; exact key0 h0 c
      · rw [sat_ok]
        refine key _ ?_
        intro hc
        have hc2 : (Option.map (fun x => x.split) (Track.fs { t with removeIndex := splitIndex g force start target t, copyIndex := splitIndex g force start target t }).head?).getD false = true ∧ t.hasLast = true := hc
        show Ctx.force (if _ then _ else _) = true
        rw [if_pos hc2]

theorem setSplit_brk {lo k : Nat} {B NS : Prop} {fwd back : Nat} {N : Nat → Prop} {c : Ctx} {ts : List Track} (h : Tracks lo k B NS c ts)
    (hr : Brks fwd back k N ts) (g : Cfg) (start target : Int) :
    Sat (setSplit g c ts start target) fun x => Brks fwd back k N x.2.1 ∧ ∀ t ∈ x.2.1, Fresh' x.1 t := by
  unfold setSplit
  have := forTracks_sat (splitTrack g c.force start target)
    (fun c' d r (_ : Mask × Bool) => (∀ t ∈ r, Good lo k B NS t) ∧ Brks fwd back k N (d ++ r) ∧ ∀ t ∈ d, Fresh' c' t) ?_ ts c [] ({}, false) ?_
  · refine sat_mono this ?_
    rintro ⟨c', ts', a⟩ h'
    simpa using h'.2
  · rintro c' d t r a ⟨hg, hr, hf⟩
    have ht := hg t List.mem_cons_self
    have hfr := splitTrack_fresh ht.inv g c.force start target c' a
    obtain ⟨c2, rm, cp, a2, e, hc2, hf2⟩ := splitTrack_ok ht g c.force start target c' a
    rw [e, sat_ok] at hfr
    rw [e, sat_ok]
    simp only [List.append_assoc, List.cons_append, List.nil_append]
    have hup : c'.up c2 := by
      rcases hc2 with rfl | rfl
      · exact Ctx.up_refl _
      · exact ⟨rfl, fun _ => rfl⟩
    refine ⟨fun u hu => hg u (List.mem_cons_of_mem _ hu), brk_mid hr ?_, ?_⟩
    · exact brk_congr (hr t (mem_mid d r t)) rfl rfl rfl (fun x => x) rfl
    · intro u hu
      rcases List.mem_append.1 hu with hu | hu
      · exact fresh'_up (hf u hu) hup
      · rw [List.mem_singleton.1 hu]; exact hfr
  · exact ⟨h.2, hr, by simp⟩

theorem dispose_brk {lo k : Nat} {B NS : Prop} {fwd back : Nat} {N : Nat → Prop} {c : Ctx} {ts : List Track} (h : Tracks lo k B NS c ts)
    (hr : Brks fwd back k N ts) (hf : ∀ t ∈ ts, Fresh t) (stop : Int) : Sat (dispose c ts stop) fun x => Brks fwd back k N x.2 := by
  unfold dispose
  have := forTracks_sat disposeTrack
    (fun c' d r (_ : Bool × Bool) => Tracks lo k B NS c' (d ++ r) ∧ Brks fwd back k N (d ++ r) ∧ ∀ t ∈ r, Fresh t) ?_ ts c [] (false, false) ?_
  · refine sat_bind this ?_
    rintro ⟨c', ts', a1, a2⟩ ⟨_, h2, _⟩
    simp only [List.nil_append, List.append_nil] at h2
    cases a1 <;> cases a2 <;> simp <;> exact h2
  · rintro c' d t r a ⟨⟨hb, hg⟩, hr, hfr⟩
    unfold disposeTrack
    have hfr' : ∀ u ∈ r, Fresh u := fun u hu => hfr u (List.mem_cons_of_mem _ hu)
    split
    · rw [sat_ok]
      simp only [List.append_assoc, List.cons_append, List.nil_append]
      exact ⟨⟨hb, hg⟩, hr, hfr'⟩
    · rename_i hcp
      have ht := hg t (mem_mid d r t)
      obtain ⟨f1, f2, f3⟩ := hfr t List.mem_cons_self hcp
      obtain ⟨c2, t2, e, hb2, hc2, hi2, hk2⟩ := removeFrames_ok hb ht.inv f1 true
      simp only [e, Res.bind_ok, sat_ok, List.append_assoc, List.cons_append, List.nil_append]
      exact ⟨⟨hb2, good_mid hg (good_drop ht hi2 hk2)⟩, brk_mid hr (brk_drop (hr t (mem_mid d r t)) f1.1 hk2), hfr'⟩
  · exact ⟨h, hr, hf⟩

theorem createTrack_brk {lo k : Nat} {B NS : Prop} {fwd back : Nat} {N : Nat → Prop} {P : Prop} {c c0 : Ctx} {xs ys : List Track} {t : Track}
    (hb : Bal c (xs ++ t :: ys)) (h : Good lo k B NS t) (hr : Brk fwd back k N t) (hf : Fresh t) (hf' : Fresh' c0 t)
    (hc : c0.force = true → P) (env : Env) (a : Nat × Mask) :
    Sat (createTrack env k c t a) fun x => Brk fwd back (k + 1) (fun j => N j ∨ (j = k ∧ P)) x.2.1 := by
  have up : ∀ (b : Bool), (b = t.hasLast ∨ t.copyIndex = 0) → Brk fwd back (k + 1) (fun j => N j ∨ (j = k ∧ P)) { t with hasLast := b } := by
    intro b _
    refine ⟨hr.calm, hr.segs, hr.queue, hr.gap, ?_, fun hm j hj => .inl (hr.breaks hm j hj)⟩
    intro j hj
    have := (hr.last j hj).1
    exact ⟨by omega, fun e => by omega⟩
  unfold createTrack
  split
  · rename_i h0
    split
    · rw [sat_ok]
      have := up t.hasLast (.inl rfl)
      exact this
    · rw [sat_ok]
      exact up false (.inr h0)
  · rename_i h0
    obtain ⟨c1, hc1⟩ : ∃ c1, (if t.media ≠ .subtitle ∧ (!t.hasLast) = true ∧ env.usedFiller a.1 = true then { c with force := true } else c) = c1 :=
      ⟨_, rfl⟩
    have hb1 : Bal c1 (xs ++ t :: ys) := by
      rw [← hc1]
      split <;> exact hb
    simp only [hc1]
    refine sat_bind (P := fun x => Brk fwd back (k + 1) (fun j => N j ∨ (j = k ∧ P)) x.2) ?_ ?_
    · unfold trackCreate
      split
      · simp
      · obtain ⟨f1, f2, f3⟩ := hf h0
        obtain ⟨s, shift, b, e, hd, ht, _, _⟩ := frameCopy_ok t.media t.shift (Nat.pos_of_ne_zero h0) f2
        simp only [e]
        obtain ⟨c2, hc2⟩ : ∃ c2, (if b = true then { (if env.info a.1 = .changed ∧ t.media ≠ .subtitle then { c1 with force := true } else c1) with
          nextForce := true } else (if env.info a.1 = .changed ∧ t.media ≠ .subtitle then { c1 with force := true } else c1)) = c2 := ⟨_, rfl⟩
        have hup : c2.nInactive = c1.nInactive ∧ c2.nPending = c1.nPending ∧ c2.nReady = c1.nReady := by
          rw [← hc2]
          refine ⟨?_, ?_, ?_⟩ <;> split <;> split <;> rfl
        rw [hc2]
        have hi1 : TInv { t with shift, hasLast := true, log := t.log ++ [.seg k ((t.fs.take t.copyIndex).map (·.i)) s] } :=
          ⟨h.inv.parts, h.inv.kparts, h.inv.count, h.inv.le, h.inv.start, h.inv.last, h.inv.head, h.inv.split, h.inv.pts, h.inv.keyPts,
            h.inv.kfs, h.inv.pending, h.inv.splitCount, h.inv.minSplit⟩
        have hb2 : Bal c2 (xs ++ { t with shift, hasLast := true, log := t.log ++ [.seg k ((t.fs.take t.copyIndex).map (·.i)) s] } :: ys) := by
          have := bal_congr (t' := { t with shift, hasLast := true, log := t.log ++ [.seg k ((t.fs.take t.copyIndex).map (·.i)) s] }) hb1 rfl
          unfold Bal at this ⊢
          rw [hup.1, hup.2.1, hup.2.2]
          exact this
        obtain ⟨c3, t3, e2, _, _, _, hk3⟩ := removeFrames_ok hb2 hi1 (n := t.removeIndex) f1 false
        rw [e2, sat_ok]
        exact brk_seg hr hf c0 hf' hc h0 hk3
    · rintro ⟨c2, t2⟩ h2
      rw [sat_ok]
      exact h2

theorem createSegment_brk {lo k : Nat} {B NS : Prop} {fwd back : Nat} {N : Nat → Prop} {c : Ctx} {ts : List Track} (h : Tracks lo k B NS c ts)
    (hr : Brks fwd back k N ts) (hf : ∀ t ∈ ts, Fresh t) (c0 : Ctx) (hf' : ∀ t ∈ ts, Fresh' c0 t) (hlo : lo ≤ k) (env : Env) :
    Sat (createSegment env k c ts) fun x => Brks fwd back (k + 1) (fun j => N j ∨ (j = k ∧ c0.force = true)) x.2 := by
  unfold createSegment
  have := forTracks_sat (createTrack env k)
    (fun c' d r (_ : Nat × Mask) => Bal c' (d ++ r) ∧ (∀ t ∈ r, Good lo k B NS t ∧ Brk fwd back k N t ∧ Fresh t ∧ Fresh' c0 t) ∧
      Brks fwd back (k + 1) (fun j => N j ∨ (j = k ∧ c0.force = true)) d) ?_ ts c [] (0, {}) ?_
  · refine sat_bind this ?_
    rintro ⟨c', ts', a⟩ ⟨_, _, h2⟩
    simp only [List.nil_append] at h2 ⊢
    split
    · simp
    · split
      · simp
      · exact h2
      · exact h2
  · rintro c' d t r a ⟨hb, hd, hr⟩
    obtain ⟨ht, hrt, hft, hft'⟩ := hd t List.mem_cons_self
    refine sat_mono (sat_and (createTrack_sat hb ht hlo hft env a) (createTrack_brk hb ht hrt hft hft' (fun x => x) env a)) ?_
    rintro ⟨c2, t2, a2⟩ ⟨⟨h1, _⟩, h3⟩
    simp only [List.append_assoc, List.cons_append, List.nil_append] at h1 h3 ⊢
    refine ⟨h1, fun u hu => hd u (List.mem_cons_of_mem _ hu), ?_⟩
    intro u hu
    rcases List.mem_append.1 hu with hu | hu
    · exact hr u hu
    · rw [List.mem_singleton.1 hu]; exact h3
  · exact ⟨h.1, fun t ht => ⟨h.2 t ht, hr t ht, hf t ht, hf' t ht⟩, by simp [Brks]⟩

/-! ## The channel -/

/-- The segment starts a period. -/
def NewPeriod (ch : Chan) (j : Nat) : Prop := ∃ o ∈ ch.out, o.index = j ∧ o.newPeriod = true

def ChBrk (fwd back : Nat) (ch : Chan) : Prop := Brks fwd back ch.nextIndex (NewPeriod ch) ch.ts

theorem commit_brk {lo : Nat} {e0 : Int} {f0 : Bool} {B NS : Prop} {fwd back : Nat} {ch : Chan} {start stop : Int}
    (h : Ready lo e0 f0 B NS ch start stop) (hr : ChBrk fwd back ch) (hf : ∀ t ∈ ch.ts, Fresh t) (hf' : ∀ t ∈ ch.ts, Fresh' ch.c t)
    (g : Cfg) (env : Env) : Sat (commit g env ch start stop) fun s => ChBrk fwd back s.chan := by
  unfold commit
  have hlo : lo ≤ ch.nextIndex := by rw [h.inv.out.next]; omega
  refine sat_bind (sat_and (createSegment_sat (c := { ch.c with curReady := g.ready, nextForce := false }) h.inv.tracks hf hlo env)
    (createSegment_brk (c := { ch.c with curReady := g.ready, nextForce := false }) h.inv.tracks hr hf ch.c hf' hlo env)) ?_
  rintro ⟨c, ts⟩ ⟨⟨_, h2, _⟩, h3⟩
  rw [sat_ok]
  have hup : ch.c.up c := h2
  intro t ht
  refine brk_mono (h3 t ht) ?_
  rintro j (⟨o, ho, h1⟩ | ⟨rfl, hp⟩)
  · exact ⟨o, List.mem_append_left _ ho, h1⟩
  · exact ⟨_, List.mem_append_right _ List.mem_cons_self, rfl, hup.2 hp⟩

theorem abort_brk {lo : Nat} {e0 : Int} {f0 : Bool} {B NS : Prop} {fwd back : Nat} {ch : Chan} {start stop : Int}
    (h : Ready lo e0 f0 B NS ch start stop) (hr : ChBrk fwd back ch) (hf : ∀ t ∈ ch.ts, Fresh t) :
    Sat (abort ch stop) fun s => ChBrk fwd back s.chan := by
  unfold abort
  refine sat_bind (dispose_brk h.inv.tracks hr hf stop) ?_
  rintro ⟨c, ts⟩ h1
  rw [sat_ok]
  exact h1

theorem finish_brk {lo : Nat} {e0 : Int} {f0 : Bool} {B NS : Prop} {fwd back : Nat} {ch : Chan} {start stop split : Int}
    (h : Ready lo e0 f0 B NS ch start stop) (hr : ChBrk fwd back ch)
    (hs : split = 0 ∨ ∀ t ∈ ch.ts, Fresh t ∧ Fresh' ch.c t) (g : Cfg) {env : Env} (he : env.Ok) :
    Sat (finish g env ch start stop split) fun s => ChBrk fwd back s.chan := by
  unfold finish
  refine sat_bind (fillEnd_sat he h.lt) ?_
  intro stop' hlt
  have hrd : Ready lo e0 f0 B NS ch start stop' := ⟨h.inv, h.le, h.gap, hlt⟩
  split
  · refine sat_bind (sat_and (setSplit_sat hrd.inv.tracks g start stop') (setSplit_brk hrd.inv.tracks hr g start stop')) ?_
    rintro ⟨c, ts, a⟩ ⟨⟨h1, h2, h3, h4⟩, h5, h6⟩
    have hr' := ready_up hrd h2 h1
    dsimp only
    split
    · exact abort_brk hr' h5 h4
    · exact commit_brk hr' h5 h4 h6 g env
  · rename_i heq
    rcases hs with hs | hs
    · have h1 := h.inv.out.nonneg
      have h2 := h.le
      omega
    · exact commit_brk hrd hr (fun t ht => (hs t ht).1) (fun t ht => (hs t ht).2) g env

theorem cut_brk {lo : Nat} {e0 : Int} {f0 : Bool} {B NS : Prop} {fwd back : Nat} {ch : Chan} {start stop : Int} (h : Inv lo e0 f0 B NS ch)
    (hr : ChBrk fwd back ch) (hle : ch.c.lastEnd ≤ start) (hlt : start < stop) (g : Cfg) {env : Env} (he : env.Ok) (video : Bool) :
    Sat (cut g env ch video start stop) fun s => ChBrk fwd back s.chan := by
  unfold cut
  obtain ⟨ch', e, hrd, hr'⟩ : ∃ ch', (if start ≠ ch.c.lastEnd then { ch with c := { ch.c with force := true } } else ch) = ch' ∧
      Ready lo e0 f0 B NS ch' start stop ∧ ChBrk fwd back ch' := by
    refine ⟨_, rfl, ?_, ?_⟩
    · split
      · exact ⟨⟨h.tracks, outOk_up h.out { ch.c with force := true } ch.ts ⟨rfl, fun _ => rfl⟩⟩, hle, fun _ => rfl, hlt⟩
      · rename_i e
        exact ⟨h, hle, fun x => absurd (fun y : start = _ => x y.symm) (fun z => e z), hlt⟩
    · split <;> exact hr
  simp only [e]
  split
  · refine sat_bind (sat_and (setSplit_sat hrd.inv.tracks g start stop) (setSplit_brk hrd.inv.tracks hr' g start stop)) ?_
    rintro ⟨c, ts, a⟩ ⟨⟨h1, h2, h3, h4⟩, h5, h6⟩
    have hrd' := ready_up hrd h2 h1
    dsimp only
    split
    · exact abort_brk hrd' h5 h4
    · exact finish_brk hrd' h5 (.inr fun t ht => ⟨h4 t ht, h6 t ht⟩) g he
  · exact finish_brk hrd hr' (.inl rfl) g he

theorem pass_brk {lo : Nat} {e0 : Int} {f0 : Bool} {B NS : Prop} {fwd back : Nat} {ch : Chan} (h : Inv lo e0 f0 B NS ch) (hr : ChBrk fwd back ch)
    {g : Cfg} (hg : CfgOk g) {env : Env} (he : env.Ok) : Sat (pass g env ch) fun s => ChBrk fwd back s.chan := by
  have lv : ∀ ch, ChBrk fwd back ch → ChBrk fwd back (leave g ch).chan := by
    intro ch h
    show ChBrk fwd back (if _ then _ else _)
    split <;> exact h
  unfold pass
  split
  · rw [sat_ok]; exact lv _ hr
  · refine sat_bind (sat_and (prepare_sat h.tracks g) (prepare_brk h.tracks hr g)) ?_
    rintro ⟨c, ts, a⟩ ⟨⟨h1, h2, h3⟩, h4⟩
    have hi : Inv lo e0 f0 B NS { ch with c, ts } := ⟨h1, outOk_up h.out c ts (Ctx.same_up h2)⟩
    dsimp only
    split
    · rw [sat_ok]; exact lv _ h4
    · split
      · rw [sat_ok]
        exact lv _ h4
      · split
        · simp
        · refine sat_bind (segTimes_ok hg c ts a.2) ?_
          rintro ⟨start, stop, m⟩ ⟨h5, h6⟩
          dsimp only
          split
          · rw [sat_ok]
            exact h4
          · exact cut_brk hi h4 h5 h6 g he _

theorem onTrack_brk {lo : Nat} {e0 : Int} {f0 : Bool} {B NS : Prop} {fwd back : Nat} {ch : Chan} (h : Inv lo e0 f0 B NS ch) (hr : ChBrk fwd back ch)
    (n : Nat) (f : Ctx → Track → Res (Ctx × Track))
    (hf : ∀ xs t ys, Bal ch.c (xs ++ t :: ys) → Good lo ch.nextIndex B NS t → Brk fwd back ch.nextIndex (NewPeriod ch) t →
      Sat (f ch.c t) fun x => Brk fwd back ch.nextIndex (NewPeriod ch) x.2) :
    Sat (onTrack ch n f) (ChBrk fwd back) := by
  unfold onTrack
  split
  · exact hr
  · rename_i t ht
    obtain ⟨e1, e2⟩ := split_at ht
    obtain ⟨hb, hg⟩ := h.tracks
    unfold ChBrk at hr
    rw [e1] at hb hg hr
    refine sat_bind (hf _ t _ hb (hg t (mem_mid _ _ t)) (hr t (mem_mid _ _ t))) ?_
    rintro ⟨c, t'⟩ h1
    rw [sat_ok, e2]
    exact brk_mid hr h1

theorem addFrame_brk {lo k : Nat} {B NS : Prop} {fwd back : Nat} {N : Nat → Prop} {c : Ctx} {xs ys : List Track} {t : Track}
    (hb : Bal c (xs ++ t :: ys)) (h : Good lo k B NS t) (hr : Brk fwd back k N t) {g : Cfg} (hF : g.fwdJump ≤ fwd) (hK : g.backJump ≤ back)
    (id : Nat) (created dts delay : Int) (key : Bool) (data : List UInt8) :
    Sat (addFrame g c t id created dts delay key data) fun x => Brk fwd back k N x.2 := by
  unfold addFrame
  split
  · exact hr
  · split
    · exact hr
    · split
      · exact hr
      · rename_i h3
        have hp := brk_push (i := ⟨id, created, dts + delay, dts, key, data⟩) hr h.inv hF hK (by
            intro hm hc
            cases hk : key with
            | true => rfl
            | false => exact absurd ⟨hk, hc, hm⟩ h3)
        have hb' : Bal c (xs ++ pushFrame g t ⟨id, created, dts + delay, dts, key, data⟩ :: ys) := bal_congr hb rfl
        simp only
        split
        · exact hp
        · obtain ⟨c2, e, _⟩ := setState_ok hb' (if (pushFrame g t ⟨id, created, dts + delay, dts, key, data⟩).pending ≥ (c.curReady : Int)
            then .ready else .pending)
          rw [e, sat_ok]
          exact brk_congr hp rfl rfl rfl (fun x => x) rfl

theorem startStream_brk {lo k : Nat} {B NS : Prop} {fwd back : Nat} {N : Nat → Prop} {c : Ctx} {xs ys : List Track} {t : Track}
    (hb : Bal c (xs ++ t :: ys)) (_h : Good lo k B NS t) (hr : Brk fwd back k N t) (g : Cfg) (initial : Nat) :
    Sat (startStream g c t initial) fun x => Brk fwd back k N x.2.1 := by
  unfold startStream
  obtain ⟨c2, t2, e, hb2, hc2, hi, hm, hf, hl, hn, hs, hh⟩ := removeAll_ok hb
  rw [e, Res.bind_ok]
  have hp := brk_reset hr hm hf hl hh
  simp only
  split
  · split
    · exact brk_jump hp initial
    · exact hp
  · exact hp

theorem step_brk {lo : Nat} {e0 : Int} {f0 : Bool} {B NS : Prop} {fwd back : Nat} {ch : Chan} (h : Inv lo e0 f0 B NS ch) (hr : ChBrk fwd back ch)
    {g : Cfg} (hg : CfgOk g) (hF : g.fwdJump ≤ fwd) (hK : g.backJump ≤ back) {op : Op} (ho : Guard B NS op) :
    Sat (step g ch op) (ChBrk fwd back) := by
  unfold step
  cases op with
  | addTrack n media filler hasLast nextId =>
    simp only [addTrack, sat_ok]
    intro u hu
    rcases List.mem_append.1 hu with hu | hu
    · exact hr u (List.mem_of_mem_take hu)
    · rcases List.mem_cons.1 hu with rfl | hu
      · exact brk_new fwd back _ _ media filler hasLast nextId
      · exact hr u (List.mem_of_mem_drop hu)
  | freeTrack n =>
    show Sat (freeTrack g ch n) _
    unfold freeTrack
    split
    · exact hr
    · rename_i t ht
      obtain ⟨e1, _⟩ := split_at ht
      obtain ⟨hb, _⟩ := h.tracks
      rw [e1] at hb
      obtain ⟨c, e, _⟩ := leaveState_ok hb
      rw [e, Res.bind_ok, sat_ok]
      intro u hu
      exact hr u (List.mem_of_mem_eraseIdx hu)
  | frame n id created dts delay key data =>
    exact onTrack_brk h hr n _ fun xs t ys hb ht hrt => addFrame_brk hb ht hrt hF hK id created dts delay key data
  | info n =>
    refine onTrack_brk h hr n _ fun xs t ys hb ht hrt => ?_
    rw [sat_ok]
    exact brk_congr hrt rfl rfl rfl (fun _ => rfl) rfl
  | start n initial =>
    refine onTrack_brk h hr n _ fun xs t ys hb ht hrt => ?_
    refine sat_bind (startStream_brk hb ht hrt g initial) ?_
    rintro ⟨c, t', s⟩ h1
    rw [sat_ok]
    exact h1
  | inactive n =>
    refine onTrack_brk h hr n _ fun xs t ys hb ht hrt => ?_
    obtain ⟨c2, e, _⟩ := setState_ok hb .inactive
    rw [e, sat_ok]
    exact brk_congr hrt rfl rfl rfl (fun x => x) rfl
  | conf curReady =>
    simp only [sat_ok]
    exact hr
  | pass env =>
    refine sat_bind (pass_brk h hr hg ho) ?_
    intro s h1
    cases s with
    | leave ch' => exact h1
    | more ch' => exact h1

/-- The states that can be reached, when the limits for jumps of time are never more than `fwd` and `back`. -/
inductive ReachJ (lo : Nat) (e0 : Int) (f0 : Bool) (B NS : Prop) (fwd back : Nat) : Chan → Prop where
  | init (curReady : Nat) (h : 0 ≤ e0) :
      ReachJ lo e0 f0 B NS fwd back { c := { curReady, lastEnd := e0, force := f0 }, ts := [], nextIndex := lo }
  | step {ch ch' : Chan} {g : Cfg} {op : Op} (h : ReachJ lo e0 f0 B NS fwd back ch) (hg : CfgOk g) (hF : g.fwdJump ≤ fwd) (hK : g.backJump ≤ back)
      (ho : Guard B NS op) (e : step g ch op = .ok ch') : ReachJ lo e0 f0 B NS fwd back ch'

theorem ReachJ.reach {lo : Nat} {e0 : Int} {f0 : Bool} {B NS : Prop} {fwd back : Nat} {ch : Chan} (h : ReachJ lo e0 f0 B NS fwd back ch) :
    Reach lo e0 f0 B NS ch := by
  induction h with
  | init curReady h => exact .init curReady h
  | step _ hg _ _ ho e ih => exact .step ih hg ho e

theorem reach_brk {lo : Nat} {e0 : Int} {f0 : Bool} {B NS : Prop} {fwd back : Nat} {ch : Chan} (h : ReachJ lo e0 f0 B NS fwd back ch) :
    ChBrk fwd back ch := by
  induction h with
  | init curReady h => intro t ht; cases ht
  | step h hg hF hK ho e ih =>
    have := step_brk (reach_inv h.reach) ih hg hF hK ho
    rw [e] at this
    exact this

/-! ## C62, C63 -/

/-- Inside a segment no frame is far from the frame before it; of a video track only key frames count. -/
theorem no_jump_inside {lo : Nat} {e0 : Int} {f0 : Bool} {B NS : Prop} {fwd back : Nat} {ch : Chan} (h : ReachJ lo e0 f0 B NS fwd back ch)
    {t : Track} (ht : t ∈ ch.ts) (hm : t.media ≠ .subtitle) {j : Nat} {src : List In} {s : Segment} (hs : Ev.seg j src s ∈ t.log) :
    ∀ l1 a b l2, src = l1 ++ a :: b :: l2 → (t.media = .video → b.key = true) → a.pts - (back : Int) ≤ b.pts ∧ b.pts ≤ a.pts + (fwd : Int) := by
  have hc := (reach_brk h t ht).segs hm j src s hs
  intro l1
  generalize src = l at hc
  clear hs
  induction l1 generalizing l with
  | nil =>
    intro a b l2 e hb
    subst e
    have := hc.1 hb
    unfold far at this
    simp only [Bool.or_eq_false_iff, decide_eq_false_iff_not] at this
    omega
  | cons x l1 ih =>
    intro a b l2 e hb
    subst e
    refine ih (l1 ++ a :: b :: l2) ?_ a b l2 rfl hb
    cases l1 with
    | nil => exact hc.2
    | cons y l1 => exact hc.2

/-- The whole claim: a segment of a track starts a period when its first frame is far from the last frame of the segment before
it, or when frames were disposed between them. -/
def JumpsBreak (fwd back : Nat) (ch : Chan) : Prop :=
  ∀ t ∈ ch.ts, t.media ≠ .subtitle → ∀ l1 j src s l2 src' s' l3, t.log = l1 ++ Ev.seg j src s :: (l2 ++ Ev.seg (j + 1) src' s' :: l3) →
    (∀ e ∈ l2, e.index? = none) → (farNext fwd back src src' = true ∨ ∃ fs, Ev.drop fs ∈ l2 ∧ fs ≠ []) →
    NewPeriod ch (j + 1)

/-- It is true when the publisher does not connect again in between, and the first frame arrived before the other segment was
made: then `breaks` has the segment. Otherwise it is false, see `jump_missed`. -/
theorem break_new_period_partial {lo : Nat} {e0 : Int} {f0 : Bool} {B NS : Prop} {fwd back : Nat} {ch : Chan}
    (h : ReachJ lo e0 f0 B NS fwd back ch) {t : Track} (ht : t ∈ ch.ts) (hm : t.media ≠ .subtitle) :
    ∀ j ∈ (hist fwd back t.log).breaks, NewPeriod ch j := (reach_brk h t ht).breaks hm

theorem foldl_gap (fwd back : Nat) : ∀ (l : List Ev) (h : Hist), (∀ e ∈ l, e.index? = none ∧ ∀ fs, e ≠ .reset fs) →
    (l.foldl (Hist.ev fwd back) h).last = h.last ∧ (l.foldl (Hist.ev fwd back) h).breaks = h.breaks ∧
    (h.gap = true ∨ (∃ fs, Ev.drop fs ∈ l ∧ fs ≠ []) → (l.foldl (Hist.ev fwd back) h).gap = true) := by
  intro l
  induction l with
  | nil => intro h _; exact ⟨rfl, rfl, fun x => x.elim (fun x => x) (by rintro ⟨_, hx, _⟩; cases hx)⟩
  | cons e l ih =>
    intro h hl
    obtain ⟨h1, h2⟩ := hl e List.mem_cons_self
    obtain ⟨a1, a2, a3⟩ := ih (h.ev fwd back e) fun x hx => hl x (List.mem_cons_of_mem _ hx)
    rw [List.foldl_cons, a1, a2]
    cases e with
    | seg j src s => simp [Ev.index?] at h1
    | reset fs => exact absurd rfl (h2 fs)
    | acc i =>
      refine ⟨rfl, rfl, fun x => a3 ?_⟩
      rcases x with x | ⟨fs, x, y⟩
      · exact .inl x
      · exact .inr ⟨fs, by simpa using x, y⟩
    | jump n =>
      refine ⟨rfl, rfl, fun x => a3 ?_⟩
      rcases x with x | ⟨fs, x, y⟩
      · exact .inl x
      · exact .inr ⟨fs, by simpa using x, y⟩
    | drop gs =>
      refine ⟨rfl, rfl, fun x => a3 ?_⟩
      rcases x with x | ⟨fs, x, y⟩
      · exact .inl (by simp [Hist.ev, x])
      · rcases List.mem_cons.1 x with x | x
        · cases x
          exact .inl (by cases gs <;> simp_all [Hist.ev])
        · exact .inr ⟨fs, x, y⟩

theorem breaks_mono (fwd back : Nat) : ∀ (l : List Ev) (h : Hist), ∀ j ∈ h.breaks, j ∈ (l.foldl (Hist.ev fwd back) h).breaks := by
  intro l
  induction l with
  | nil => intro h j hj; exact hj
  | cons e l ih =>
    intro h j hj
    refine ih _ j ?_
    cases e with
    | seg j' src s =>
      show j ∈ (if _ then _ else _)
      split
      · exact List.mem_append_left _ hj
      · exact hj
    | _ => exact hj

/-- When frames of a track were disposed between two of its segments, the second one starts a period. -/
theorem disposed_new_period_partial {lo : Nat} {e0 : Int} {f0 : Bool} {B NS : Prop} {fwd back : Nat} {ch : Chan}
    (h : ReachJ lo e0 f0 B NS fwd back ch) {t : Track} (ht : t ∈ ch.ts) (hm : t.media ≠ .subtitle) {l1 l2 l3 : List Ev} {j : Nat}
    {src src' fs : List In} {s s' : Segment} (hl : t.log = l1 ++ Ev.seg j src s :: (l2 ++ Ev.seg (j + 1) src' s' :: l3))
    (h2 : ∀ e ∈ l2, e.index? = none ∧ ∀ fs, e ≠ .reset fs) (hd : Ev.drop fs ∈ l2) (hn : fs ≠ []) : NewPeriod ch (j + 1) := by
  refine break_new_period_partial h ht hm (j + 1) ?_
  rw [hl]
  unfold hist
  rw [List.foldl_append, List.foldl_cons, List.foldl_append, List.foldl_cons]
  refine breaks_mono fwd back l3 _ _ ?_
  obtain ⟨a1, a2, a3⟩ := foldl_gap fwd back l2 ((l1.foldl (Hist.ev fwd back) {}).ev fwd back (.seg j src s)) h2
  have a3 := a3 (.inr ⟨fs, hd, hn⟩)
  show j + 1 ∈ (if _ then _ else _)
  rw [if_pos ⟨a3, by rw [a1]; rfl⟩]
  simp

/-- When a frame is pending behind a segment, and is far from its last frame, the next segment starts a period. -/
theorem jump_new_period_partial {lo : Nat} {e0 : Int} {f0 : Bool} {B NS : Prop} {fwd back : Nat} {ch : Chan}
    (h : ReachJ lo e0 f0 B NS fwd back ch) {t : Track} (ht : t ∈ ch.ts) (hm : t.media ≠ .subtitle) {l1 l2 l3 : List Ev} {j : Nat}
    {src src' rest : List In} {a b : In} {s s' : Segment} (hl : t.log = l1 ++ Ev.seg j src s :: (l2 ++ Ev.seg (j + 1) src' s' :: l3))
    (h2 : ∀ e ∈ l2, e.index? = none ∧ ∀ fs, e ≠ .reset fs) (ha : src.getLast? = some a)
    (hq : (hist fwd back l1).queue = src ++ b :: rest) (hf : b.pts < a.pts - back ∨ b.pts > a.pts + fwd) : NewPeriod ch (j + 1) := by
  refine break_new_period_partial h ht hm (j + 1) ?_
  rw [hl]
  unfold hist
  rw [List.foldl_append, List.foldl_cons, List.foldl_append, List.foldl_cons]
  refine breaks_mono fwd back l3 _ _ ?_
  obtain ⟨a1, a2, a3⟩ := foldl_gap fwd back l2 ((l1.foldl (Hist.ev fwd back) {}).ev fwd back (.seg j src s)) h2
  have a3 := a3 (.inl (by
    show farNext fwd back src ((hist fwd back l1).queue.drop src.length) = true
    rw [hq, List.drop_left]
    unfold farNext
    rw [ha]
    simp [far, hf]))
  show j + 1 ∈ (if _ then _ else _)
  rw [if_pos ⟨a3, by rw [a1]; rfl⟩]
  simp

end Verif.Segmenter
