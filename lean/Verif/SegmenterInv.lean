import Verif.SegmenterList

/-!
# The invariant of a track of the segmenter
-/

namespace Verif.Segmenter

/-- A frame at which a track can be cut: a key frame of a video track, any frame of another track. -/
def anchor (m : Media) (f : Frame) : Bool := decide (m ≠ .video) || f.i.key

/-- The time of the last frame at which the track can be cut. -/
def anchorPts (m : Media) : List Frame → Int → Int
  | [], d => d
  | f :: fs, d => anchorPts m fs (if anchor m f then f.i.pts else d)

theorem anchorPts_push (m : Media) (f : Frame) : ∀ (fs : List Frame) (d : Int),
    anchorPts m (fs ++ [f]) d = if anchor m f then f.i.pts else anchorPts m fs d := by
  intro fs
  induction fs with
  | nil => intro d; rfl
  | cons g fs ih => intro d; rw [List.cons_append, anchorPts, ih, anchorPts]

theorem anchorPts_append (m : Media) : ∀ (fs gs : List Frame) (d : Int), anchorPts m (fs ++ gs) d = anchorPts m gs (anchorPts m fs d) := by
  intro fs
  induction fs with
  | nil => intro gs d; rfl
  | cons f fs ih => intro gs d; rw [List.cons_append, anchorPts, ih, anchorPts]

theorem anchorPts_head (m : Media) (f : Frame) (fs : List Frame) (d d' : Int) (h : anchor m f = true) :
    anchorPts m (f :: fs) d = anchorPts m (f :: fs) d' := by
  rw [anchorPts, anchorPts, if_pos h, if_pos h]

theorem anchorPts_drop (m : Media) (fs : List Frame) (n : Nat) (f : Frame) (rest : List Frame) (h : fs.drop n = f :: rest)
    (hf : anchor m f = true) (d : Int) : anchorPts m (f :: rest) d = anchorPts m fs d := by
  conv => rhs; rw [← List.take_append_drop n fs, anchorPts_append, h]
  exact anchorPts_head m f rest _ _ hf

/-- What the counters of a track say about its pending frames. -/
structure TInv (t : Track) : Prop where
  parts : PartsOk framePart t.parts
  kparts : PartsOk kfPartMax t.kparts
  count : t.frameCount = t.fs.length
  le : t.fs.length ≤ frameMax
  start : ∀ f ∈ t.fs.head?, t.startPts = f.i.pts
  last : ∀ f ∈ t.fs.getLast?, t.lastPts = f.i.pts
  head : ∀ f ∈ t.fs.head?, anchor t.media f = true
  split : ∀ f ∈ t.fs, f.split = true → anchor t.media f = true
  pts : ∀ f ∈ t.fs, f.i.pts < invalid
  keyPts : t.fs ≠ [] → t.lastKeyPts = anchorPts t.media t.fs 0
  kfs : if t.media = .video then KfOk 0 none t.fs t.ks ∧ t.lastKey = keyIdx t.fs else t.ks = [] ∧ t.lastKey = 0
  pending : t.pending = match t.fs with
    | [] => 0
    | f :: fs => t.lastKeyPts - f.i.pts - gaps f fs
  splitCount : t.splitCount = splits t.fs
  minSplit : t.minSplit = getMinSplit t.fs

/-- A number of frames that can be removed. -/
def Cut (t : Track) (n : Nat) : Prop := n ≤ t.fs.length ∧ ∀ f, t.fs[n]? = some f → anchor t.media f = true

theorem cut_zero {t : Track} (h : TInv t) : Cut t 0 := by
  refine ⟨Nat.zero_le _, fun f hf => h.head f ?_⟩
  rw [List.head?_eq_getElem?]; exact hf

theorem cut_all (t : Track) : Cut t t.fs.length := by
  refine ⟨Nat.le_refl _, fun f hf => ?_⟩
  rw [List.getElem?_eq_none (Nat.le_refl _)] at hf
  cases hf

theorem cut_pos {t : Track} (h : TInv t) (hv : t.media = .video) {n : Nat} (hn : n = 0 ∨ n ∈ kfPos 0 t.ks) : Cut t n := by
  rcases hn with rfl | hn
  · exact cut_zero h
  · have := h.kfs
    rw [if_pos hv] at this
    obtain ⟨j, f, e1, e2, e3⟩ := kfPos_key t.fs 0 0 none t.ks this.1 n hn
    have : n = j := by omega
    subst this
    refine ⟨Nat.le_of_lt (List.getElem?_eq_some_iff.1 e2).1, fun g hg => ?_⟩
    rw [e2] at hg
    cases hg
    simp [anchor, e3]

theorem cut_other {t : Track} (hv : t.media ≠ .video) {n : Nat} (hn : n ≤ t.fs.length) : Cut t n :=
  ⟨hn, fun f _ => by simp [anchor, hv]⟩

/-! ## The least split -/

theorem minSplitLoop_none : ∀ (fs : List Frame) (p : Int), fs.countP (·.split) = 0 → minSplitLoop p fs = invalid := by
  intro fs
  induction fs with
  | nil => intro p _; rfl
  | cons f fs ih =>
    intro p h
    rw [List.countP_cons] at h
    have hf : f.split = false := by
      cases hs : f.split with
      | false => rfl
      | true => rw [hs] at h; simp at h
    rw [minSplitLoop, hf]
    exact ih _ (by omega)

theorem getMinSplit_none (fs : List Frame) (h : splits fs = 0) : getMinSplit fs = invalid := by
  cases fs with
  | nil => rfl
  | cons f fs => exact minSplitLoop_none fs _ (by simpa [splits] using h)

theorem splits_le : ∀ (fs : List Frame) (n : Nat), splits (fs.drop n) ≤ splits fs := by
  intro fs n
  unfold splits
  rw [List.drop_drop, Nat.add_comm, ← List.drop_drop]
  exact List.Sublist.countP_le (List.drop_sublist _ _)

theorem getMinSplit_drop : ∀ (n : Nat) (fs : List Frame), splits (fs.drop n) = splits fs → getMinSplit (fs.drop n) = getMinSplit fs := by
  intro n
  induction n with
  | zero => intro fs _; simp
  | succ n ih =>
    intro fs h
    match fs with
    | [] => simp
    | [f] =>
      rw [getMinSplit_none [f] (by simp [splits])]
      rw [getMinSplit_none _ (by rw [h]; simp [splits])]
    | f :: g :: fs =>
      rw [List.drop_succ_cons] at h ⊢
      have h1 := splits_le (g :: fs) n
      have h2 : splits (f :: g :: fs) = splits (g :: fs) + if g.split then 1 else 0 := by
        simp [splits, List.countP_cons]
      have hg : g.split = false := by
        cases hs : g.split with
        | false => rfl
        | true => rw [hs] at h2; simp at h2; omega
      rw [hg] at h2
      simp only [Bool.false_eq_true, if_false, Nat.add_zero] at h2
      rw [ih (g :: fs) (by rw [h, h2]), getMinSplit, getMinSplit, minSplitLoop, hg]
      simp

theorem minSplitLoop_push : ∀ (fs : List Frame) (p : Int) (f l : Frame), (∀ q ∈ fs, q.i.pts < invalid) → p < invalid →
    (match fs.getLast? with | none => p | some l => l.i.pts) = l.i.pts →
    minSplitLoop p (fs ++ [f]) = if f.split ∧ minSplitLoop p fs = invalid then l.i.pts else minSplitLoop p fs := by
  intro fs
  induction fs with
  | nil =>
    intro p f l _ hp hl
    simp only [List.getLast?_nil] at hl
    subst hl
    simp [minSplitLoop]
  | cons g fs ih =>
    intro p f l hq hp hl
    rw [List.cons_append, minSplitLoop, minSplitLoop]
    split
    · rw [if_neg (by omega)]
    · refine ih g.i.pts f l (fun q h => hq q (List.mem_cons_of_mem _ h)) (hq g (by simp)) ?_
      cases fs with
      | nil => simpa using hl
      | cons g' fs' => rw [List.getLast?_cons_cons] at hl; exact hl

theorem gaps_push : ∀ (fs : List Frame) (g f l : Frame), ((g :: fs).getLast? = some l) →
    gaps g (fs ++ [f]) = gaps g fs + if f.split then f.i.pts - l.i.pts else 0 := by
  intro fs
  induction fs with
  | nil =>
    intro g f l h
    simp at h
    subst h
    simp [gaps]
  | cons g' fs ih =>
    intro g f l h
    rw [List.getLast?_cons_cons] at h
    rw [List.cons_append, gaps, ih g' f l h, gaps]
    omega

/-! ## The first frame is marked as a split -/

def markHead : List Frame → List Frame
  | [] => []
  | f :: fs => { f with split := true } :: fs

theorem markFrame_ok {ps : List (List Frame)} (h : PartsOk framePart ps) :
    PartsOk framePart (markFrame ps) ∧ (markFrame ps).flatten = markHead ps.flatten := by
  match ps, h with
  | [] :: ps, h =>
    have := h.1 rfl
    subst this
    exact ⟨h, rfl⟩
  | (f :: fs) :: ps, h =>
    obtain ⟨ha, hb, hc⟩ := h
    refine ⟨⟨by simp, hb, ?_⟩, rfl⟩
    intro q hq
    rcases List.mem_cons.1 hq with rfl | hq
    · exact hc (f :: fs) (by simp)
    · exact hc _ (List.mem_cons_of_mem _ hq)

def markKfs : List Kf → List Kf
  | [] => []
  | k :: ks => if k.delta = 0 then { k with split := true } :: ks else k :: ks

theorem markKf_ok {ps : List (List Kf)} (h : PartsOk kfPartMax ps) :
    PartsOk kfPartMax (markKf ps) ∧ (markKf ps).flatten = markKfs ps.flatten := by
  match ps, h with
  | [] :: ps, h =>
    have := h.1 rfl
    subst this
    exact ⟨h, rfl⟩
  | (f :: fs) :: ps, h =>
    obtain ⟨ha, hb, hc⟩ := h
    rw [markKf]
    split
    · rename_i h0
      refine ⟨⟨by simp, hb, ?_⟩, ?_⟩
      · intro q hq
        rcases List.mem_cons.1 hq with rfl | hq
        · exact hc (f :: fs) (by simp)
        · exact hc _ (List.mem_cons_of_mem _ hq)
      · simp [markKfs, h0]
    · rename_i h0
      exact ⟨⟨ha, hb, hc⟩, by simp [markKfs, h0]⟩

theorem markHead_ins (fs : List Frame) : (markHead fs).map (·.i) = fs.map (·.i) := by
  cases fs <;> rfl

theorem markHead_length (fs : List Frame) : (markHead fs).length = fs.length := by
  cases fs <;> rfl

theorem keyIdx_ins : ∀ (fs gs : List Frame), fs.map (·.i) = gs.map (·.i) → keyIdx fs = keyIdx gs := by
  intro fs
  induction fs with
  | nil =>
    intro gs h
    cases gs with
    | nil => rfl
    | cons g gs => simp at h
  | cons f fs ih =>
    intro gs h
    cases gs with
    | nil => simp at h
    | cons g gs =>
      simp only [List.map_cons, List.cons.injEq] at h
      have : fs.any (·.i.key) = gs.any (·.i.key) := by
        have e := congrArg (fun l => l.any (·.key)) h.2
        simp only [List.any_map] at e
        exact e
      rw [keyIdx, keyIdx, this, ih gs h.2]

theorem mark_ok {t : Track} (h : TInv t) : TInv { t with parts := markFrame t.parts, kparts := markKf t.kparts } := by
  obtain ⟨h1, h2⟩ := markFrame_ok h.parts
  obtain ⟨h3, h4⟩ := markKf_ok h.kparts
  have ef : Track.fs { t with parts := markFrame t.parts, kparts := markKf t.kparts } = markHead t.fs := h2
  have ek : Track.ks { t with parts := markFrame t.parts, kparts := markKf t.kparts } = markKfs t.ks := h4
  have hh := h.head
  have hs := h.start
  have hl := h.last
  have hk := h.keyPts
  have hp := h.pending
  have hm := h.minSplit
  have hc := h.splitCount
  have hkf := h.kfs
  refine ⟨h1, h3, ?_, ?_, ?_, ?_, ?_, ?_, ?_, ?_, ?_, ?_, ?_, ?_⟩ <;> (try rw [ef]) <;> (try rw [ek])
  · exact h.count.trans (markHead_length _).symm
  · rw [markHead_length]; exact h.le
  · intro f hf
    cases hfs : t.fs with
    | nil => rw [hfs] at hf; simp [markHead] at hf
    | cons g gs =>
      rw [hfs] at hf hs
      simp [markHead] at hf
      subst hf
      exact hs g rfl
  · intro f hf
    cases hfs : t.fs with
    | nil => rw [hfs] at hf; simp [markHead] at hf
    | cons g gs =>
      rw [hfs] at hf hl
      cases gs with
      | nil =>
        simp [markHead] at hf
        subst hf
        exact hl g rfl
      | cons g' gs =>
        rw [markHead, List.getLast?_cons_cons] at hf
        rw [List.getLast?_cons_cons] at hl
        exact hl f hf
  · intro f hf
    cases hfs : t.fs with
    | nil => rw [hfs] at hf; simp [markHead] at hf
    | cons g gs =>
      rw [hfs] at hf hh
      simp [markHead] at hf
      subst hf
      exact hh g rfl
  · intro f hf hsp
    have hsplit := h.split
    cases hfs : t.fs with
    | nil => rw [hfs] at hf; simp [markHead] at hf
    | cons g gs =>
      rw [hfs] at hf hh hsplit
      rw [markHead, List.mem_cons] at hf
      rcases hf with rfl | hf
      · exact hh g rfl
      · exact hsplit f (List.mem_cons_of_mem _ hf) hsp
  · intro f hf
    have : f.i ∈ (markHead t.fs).map (·.i) := List.mem_map_of_mem hf
    rw [markHead_ins] at this
    obtain ⟨g, hg, e⟩ := List.mem_map.1 this
    rw [← e]; exact h.pts g hg
  · intro hne
    cases hfs : t.fs with
    | nil => rw [hfs] at hne; exact absurd rfl hne
    | cons g gs =>
      rw [hfs] at hk
      exact hk (by simp)
  · change if t.media = .video then KfOk 0 none (markHead t.fs) (markKfs t.ks) ∧ t.lastKey = keyIdx (markHead t.fs) else
      markKfs t.ks = [] ∧ t.lastKey = 0
    split
    · rename_i hv
      rw [if_pos hv] at hkf
      refine ⟨?_, by rw [keyIdx_ins _ _ (markHead_ins t.fs)]; exact hkf.2⟩
      cases hfs : t.fs with
      | nil =>
        rw [hfs] at hkf
        have := hkf.1
        unfold KfOk at this
        rw [this]
        unfold KfOk
        rfl
      | cons g gs =>
        rw [hfs] at hkf hh
        have hg : g.i.key = true := by
          have := hh g rfl
          simpa [anchor, hv] using this
        have h0 := hkf.1
        rw [kfOk_cons, if_pos hg] at h0
        cases hks : t.ks with
        | nil => rw [hks] at h0; exact h0.elim
        | cons k ks =>
          rw [hks] at h0
          simp only at h0
          obtain ⟨a1, a2, a3, a4, a5, a6⟩ := h0
          rw [markHead, markKfs, if_pos a5, kfOk_cons, if_pos hg]
          exact ⟨a1, a2, rfl, a4, a5, a6⟩
    · rename_i hv
      rw [if_neg hv] at hkf
      rw [hkf.1]
      exact ⟨rfl, hkf.2⟩
  · cases hfs : t.fs with
    | nil => rw [hfs] at hp; exact hp
    | cons g gs =>
      rw [hfs] at hp
      have : gaps { g with split := true } gs = gaps g gs := by cases gs <;> rfl
      simp only [markHead, this]
      exact hp
  · change t.splitCount = _
    rw [hc]
    cases t.fs <;> rfl
  · change t.minSplit = _
    rw [hm]
    cases t.fs <;> rfl

/-! ## States of tracks -/

/-- The counters of the channel match the states of its tracks. -/
def Bal (c : Ctx) (ts : List Track) : Prop :=
  c.nInactive = ts.countP (·.state == .inactive) ∧ c.nPending = ts.countP (·.state == .pending) ∧
    c.nReady = ts.countP (·.state == .ready)

/-- Only the counters differ. -/
def Ctx.same (c c' : Ctx) : Prop :=
  c'.curReady = c.curReady ∧ c'.lastEnd = c.lastEnd ∧ c'.force = c.force ∧ c'.nextForce = c.nextForce

theorem Ctx.same_refl (c : Ctx) : c.same c := ⟨rfl, rfl, rfl, rfl⟩

theorem Ctx.same_trans {a b c : Ctx} (h : a.same b) (h' : b.same c) : a.same c :=
  ⟨h'.1.trans h.1, h'.2.1.trans h.2.1, h'.2.2.1.trans h.2.2.1, h'.2.2.2.trans h.2.2.2⟩

theorem bal_mid (xs ys : List Track) (t : Track) (s : TState) :
    (xs ++ t :: ys).countP (·.state == s) = xs.countP (·.state == s) + ys.countP (·.state == s) + if t.state = s then 1 else 0 := by
  rw [List.countP_append, List.countP_cons]
  by_cases h : t.state = s <;> simp [h] <;> omega

theorem bal_congr {c : Ctx} {xs ys : List Track} {t t' : Track} (h : Bal c (xs ++ t :: ys)) (hs : t'.state = t.state) :
    Bal c (xs ++ t' :: ys) := by
  unfold Bal at *
  simp only [bal_mid, hs] at *
  exact h

theorem setState_ok {c : Ctx} {xs ys : List Track} {t : Track} (h : Bal c (xs ++ t :: ys)) (s : TState) :
    ∃ c', setState c t s = .ok (c', { t with state := s }) ∧ Bal c' (xs ++ { t with state := s } :: ys) ∧ c.same c' := by
  unfold setState
  by_cases hs : t.state = s
  · rw [if_pos hs]
    subst hs
    exact ⟨c, rfl, h, c.same_refl⟩
  · rw [if_neg hs]
    unfold Bal at *
    simp only [bal_mid] at *
    obtain ⟨h1, h2, h3⟩ := h
    cases ht : t.state <;> cases s <;> simp only [ht, leaveState, reduceCtorEq, if_true, if_false, not_true] at * <;>
      (rw [if_neg (by omega)]; refine ⟨_, rfl, ?_, rfl, rfl, rfl, rfl⟩; simp; omega)

/-! ## Removal of frames -/

/-- The next frame of the track starts a period: the first pending frame is marked, or the next frame that arrives will be. -/
def Marked (t : Track) : Prop :=
  match t.fs with
  | [] => t.nextSplit = true
  | f :: _ => f.split = true

/-- What the removal of the first `n` frames leaves as it was. -/
structure Kept (n : Nat) (free : Bool) (t t' : Track) : Prop where
  media : t'.media = t.media
  filler : t'.filler = t.filler
  hasLast : t'.hasLast = t.hasLast
  copyIndex : t'.copyIndex = t.copyIndex
  removeIndex : t'.removeIndex = t.removeIndex
  ins : t'.fs.map (·.i) = (t.fs.drop n).map (·.i)
  log : t'.log = if free = true ∧ n ≠ 0 then t.log ++ [.drop ((t.fs.take n).map (·.i))] else t.log
  nextId : t'.nextId = match ((t.fs.take n).map (·.i)).getLast? with
    | none => t.nextId
    | some i => i.id + 1
  shift : t'.shift = t.shift ∨ t'.shift = 0
  tail : t'.fs.drop 1 = (t.fs.drop n).drop 1
  head : ∀ f ∈ (t.fs.drop n).head?, f.split = true → Marked t'
  mark : free = true → n ≠ 0 → Marked t'
  zero : n = 0 → t' = t

theorem noFirst_iff {ps : List (List α)} {n : Nat} (h : PartsOk n ps) : noFirst ps = true ↔ ps.flatten = [] := by
  match ps, h with
  | [] :: ps, h => rw [h.1 rfl]; simp [noFirst]
  | (x :: xs) :: ps, h => simp [noFirst]

theorem restart_ok {c : Ctx} {xs ys : List Track} {t : Track} (h : Bal c (xs ++ t :: ys)) (d : Int) :
    ∃ c' s, restart c t d = .ok (c', { refresh t d with state := s }) ∧
      Bal c' (xs ++ { refresh t d with state := s } :: ys) ∧ c.same c' := by
  have hb : Bal c (xs ++ refresh t d :: ys) := by
    refine bal_congr h ?_
    unfold refresh
    split <;> rfl
  unfold restart
  simp only
  split
  · obtain ⟨c', e1, e2, e3⟩ := setState_ok hb .pending
    exact ⟨c', .pending, e1, e2, e3⟩
  · exact ⟨c, (refresh t d).state, rfl, hb, c.same_refl⟩

theorem gaps_of_drop (t : Track) (h : TInv t) (n : Nat) (f : Frame) (rest : List Frame) (hd : t.fs.drop n = f :: rest)
    (d : Int) (hdur : d + gapsL (t.fs.drop n) = gapsL t.fs) :
    t.pending - (f.i.pts - t.startPts - d) = t.lastKeyPts - f.i.pts - gaps f rest := by
  have hp := h.pending
  have hs := h.start
  rw [hd] at hdur
  cases hfs : t.fs with
  | nil => rw [hfs] at hd; simp at hd
  | cons g gs =>
    rw [hfs] at hp hs hdur
    have := hs g rfl
    simp only [gapsL] at hdur
    simp only at hp
    omega

theorem refresh_some (t : Track) (d : Int) (f : Frame) (rest : List Frame) (hp : PartsOk framePart t.parts) (h : t.fs = f :: rest) :
    refresh t d = { t with pending := t.pending - (f.i.pts - t.startPts - d), startPts := f.i.pts } := by
  unfold refresh
  match hps : t.parts, hp with
  | [] :: ps, hp =>
    have := hp.1 rfl
    subst this
    simp [Track.fs, hps] at h
  | (g :: gs) :: ps, hp =>
    simp [Track.fs, hps] at h
    rw [h.1]

theorem refresh_none (t : Track) (d : Int) (h : t.fs = []) : refresh t d = { t with pending := 0 } := by
  unfold refresh
  split
  · rename_i f fs ps hps
    simp [Track.fs, hps] at h
  · rfl

theorem removed_ok {t : Track} (h : TInv t) {n : Nat} (hc : Cut t n) {parts : List (List Frame)} {kparts : List (List Kf)} {lastKey : Nat} {r : Rm}
    {free : Bool} (hp : PartsOk framePart parts) (hf : parts.flatten = t.fs.drop n) (hk : PartsOk kfPartMax kparts)
    (hkf : if t.media = .video then KfOk 0 none (t.fs.drop n) kparts.flatten ∧ lastKey = keyIdx (t.fs.drop n)
      else kparts.flatten = [] ∧ lastKey = 0)
    (hs : r.splitCount = splits (t.fs.drop n)) (hd : r.splitDur + gapsL (t.fs.drop n) = gapsL t.fs) (s : TState) :
    TInv { refresh (removed t n free parts kparts lastKey r) r.splitDur with state := s, minSplit := getMinSplit (t.fs.drop n) } := by
  have e0 : (removed t n free parts kparts lastKey r).fs = t.fs.drop n := hf
  have hcount := h.count
  have hle := h.le
  have hcle := hc.1
  have hlast : ∀ f ∈ (t.fs.drop n).getLast?, t.lastPts = f.i.pts := by
    intro f hf
    rw [List.getLast?_drop] at hf
    split at hf
    · cases hf
    · exact h.last f hf
  have hmem : ∀ f ∈ t.fs.drop n, f ∈ t.fs := fun f hf => List.mem_of_mem_drop hf
  cases hfs : t.fs.drop n with
  | nil =>
    rw [refresh_none _ _ (by rw [e0, hfs])]
    have e1 : parts.flatten = [] := by rw [hf, hfs]
    refine ⟨hp, hk, ?_, ?_, ?_, ?_, ?_, ?_, ?_, ?_, ?_, ?_, ?_, ?_⟩ <;> (try simp only [removed, Track.fs, e1])
    · have := congrArg List.length hfs
      simp at this ⊢; omega
    · simp
    · simp
    · simp
    · simp
    · simp
    · simp
    · simp
    · rw [hfs] at hkf; exact hkf
    · rw [hs, hfs]
  | cons f rest =>
    rw [refresh_some _ _ f rest hp (by rw [e0, hfs])]
    have e1 : parts.flatten = f :: rest := by rw [hf, hfs]
    have hanch : anchor t.media f = true := by
      apply hc.2
      have := congrArg (fun l => l[0]?) hfs
      simpa using this
    have hpend := gaps_of_drop t h n f rest hfs r.splitDur hd
    rw [hfs] at hlast hmem hkf hs
    refine ⟨hp, hk, ?_, ?_, ?_, ?_, ?_, ?_, ?_, ?_, ?_, ?_, ?_, ?_⟩ <;> (try simp only [removed, Track.fs, e1])
    · have := congrArg List.length hfs
      simp at this ⊢; omega
    · have := congrArg List.length hfs
      simp at this ⊢; omega
    · intro g hg; simp at hg; subst hg; rfl
    · exact hlast
    · intro g hg; simp at hg; subst hg; exact hanch
    · exact fun g hg => h.split g (hmem g hg)
    · exact fun g hg => h.pts g (hmem g hg)
    · intro _
      rw [anchorPts_drop t.media t.fs n f rest hfs hanch]
      exact h.keyPts (by intro h0; rw [h0] at hfs; simp at hfs)
    · exact hkf
    · exact hpend
    · exact hs

theorem enableSplit_ok {t : Track} (h : TInv { t with minSplit := getMinSplit t.fs }) (initial : Nat) (free : Bool)
    (hm : t.splitCount = initial → t.minSplit = getMinSplit t.fs) :
    TInv (enableSplit t initial free) ∧ (enableSplit t initial free).state = t.state ∧
      (enableSplit t initial free).fs.map (·.i) = t.fs.map (·.i) ∧
      (∃ ps ks b m, enableSplit t initial free = { t with parts := ps, kparts := ks, nextSplit := b, minSplit := m }) ∧
      (enableSplit t initial free).fs.drop 1 = t.fs.drop 1 ∧
      (∀ f ∈ t.fs.head?, f.split = true → Marked (enableSplit t initial free)) ∧ (free = true → Marked (enableSplit t initial free)) := by
  have hh : ∀ u : Track, (∃ ps, u.parts = ps ∧ ps = t.parts) → ∀ f ∈ t.fs.head?, f.split = true → Marked u := by
    rintro u ⟨ps, h1, rfl⟩ f hf hs
    have e : u.fs = t.fs := by unfold Track.fs; rw [h1]
    unfold Marked
    rw [e]
    cases hfs : t.fs with
    | nil => rw [hfs] at hf; cases hf
    | cons g gs => rw [hfs] at hf; simp at hf; subst hf; exact hs
  have e : (if t.splitCount ≠ initial then { t with minSplit := if t.splitCount > 0 then getMinSplit t.fs else invalid } else t) =
      { t with minSplit := getMinSplit t.fs } := by
    split
    · split
      · rfl
      · rename_i h0
        rw [getMinSplit_none t.fs (by have := h.splitCount; change t.splitCount = splits t.fs at this; omega)]
    · rename_i h0
      rw [← hm (by omega)]
  unfold enableSplit
  simp only [e]
  split
  · split
    · rename_i hno
      have hnil : t.fs = [] := (noFirst_iff h.parts).1 hno
      refine ⟨?_, rfl, rfl, ⟨_, _, _, _, rfl⟩, rfl, hh _ ⟨_, rfl, rfl⟩, ?_⟩
      · exact ⟨h.parts, h.kparts, h.count, h.le, h.start, h.last, h.head, h.split, h.pts, h.keyPts, h.kfs, h.pending, h.splitCount, h.minSplit⟩
      · intro _
        unfold Marked
        rw [show Track.fs { t with minSplit := getMinSplit t.fs, nextSplit := true } = [] from hnil]
    · rename_i hno
      have hne : t.fs ≠ [] := fun x => hno ((noFirst_iff h.parts).2 x)
      have e2 : Track.fs { t with minSplit := getMinSplit t.fs, parts := markFrame t.parts, kparts := markKf t.kparts } = markHead t.fs :=
        (markFrame_ok h.parts).2
      have hm : Marked { t with minSplit := getMinSplit t.fs, parts := markFrame t.parts, kparts := markKf t.kparts } := by
        unfold Marked
        rw [e2]
        cases hfs : t.fs with
        | nil => exact absurd hfs hne
        | cons f fs => rfl
      refine ⟨mark_ok h, rfl, ?_, ⟨_, _, _, _, rfl⟩, ?_, fun _ _ _ => hm, fun _ => hm⟩
      · rw [e2]
        exact markHead_ins _
      · rw [e2]
        cases t.fs <;> rfl
  · rename_i hn
    exact ⟨h, rfl, rfl, ⟨_, _, _, _, rfl⟩, rfl, hh _ ⟨_, rfl, rfl⟩, fun x => absurd (.inr x) hn⟩

theorem removeFrames_ok {c : Ctx} {xs ys : List Track} {t : Track} (hb : Bal c (xs ++ t :: ys)) (h : TInv t) {n : Nat} (hc : Cut t n) (free : Bool) :
    ∃ c' t', removeFrames c t n free = .ok (c', t') ∧ Bal c' (xs ++ t' :: ys) ∧ c.same c' ∧ TInv t' ∧ Kept n free t t' := by
  unfold removeFrames
  by_cases h0 : n = 0
  · subst h0
    rw [if_pos rfl]
    refine ⟨c, t, rfl, hb, c.same_refl, h, rfl, rfl, rfl, rfl, rfl, by simp, by simp, by simp, .inl rfl, by simp, ?_, by simp, fun _ => rfl⟩
    intro f hf hs
    unfold Marked
    cases hfs : t.fs with
    | nil => rw [hfs] at hf; cases hf
    | cons g gs => rw [hfs] at hf; simp at hf; subst hf; exact hs
  · rw [if_neg h0, if_neg (by rw [h.count]; have := hc.1; omega)]
    simp only
    obtain ⟨r, parts, e1, h1, h2, ⟨l, h3, h3'⟩, h4, h5, h6⟩ := frameRemove_ok h.parts t.shift n free (by omega) hc.1
    rw [show t.parts.flatten = t.fs from rfl] at h2 h3 h4 h5
    rw [h.splitCount]
    change frameRemove t.parts t.shift (splits t.fs) n free = _ at e1
    rw [e1]
    simp only [Res.bind_ok]
    have hk : ∃ kparts lastKey, keysRemove t n = .ok (kparts, lastKey) ∧ PartsOk kfPartMax kparts ∧
        if t.media = .video then KfOk 0 none (t.fs.drop n) kparts.flatten ∧ lastKey = keyIdx (t.fs.drop n)
          else kparts.flatten = [] ∧ lastKey = 0 := by
      have hkf := h.kfs
      unfold keysRemove
      by_cases hv : t.media = .video
      · rw [if_pos hv] at hkf
        simp only [if_pos hv]
        match hkp : t.kparts, h.kparts with
        | part :: next, hok =>
          obtain ⟨ps, a1, a2, a3⟩ := kfParts_ok next n part hok
          rw [kfRemove]
          simp only [a1, Res.bind_ok]
          refine ⟨_, _, rfl, a2, ?_, ?_⟩
          · rw [a3, ← hkp]
            have := kfFlat_ok t.fs n 0 none t.ks hkf.1
            rw [Nat.zero_add] at this
            exact this
          · rw [keyIdx_drop, ← hkf.2]
            split <;> omega
      · rw [if_neg hv] at hkf
        simp only [if_neg hv]
        exact ⟨_, _, rfl, h.kparts, hkf⟩
    obtain ⟨kparts, lastKey, e2, h7, h8⟩ := hk
    rw [e2]
    simp only [Res.bind_ok]
    have hb' : Bal c (xs ++ removed t n free parts kparts lastKey r :: ys) := bal_congr hb rfl
    obtain ⟨c', s, e3, h9, h10⟩ := restart_ok hb' r.splitDur
    rw [e3]
    simp only [Res.bind_ok]
    have hfs : ({ refresh (removed t n free parts kparts lastKey r) r.splitDur with state := s } : Track).fs = t.fs.drop n := by
      rw [← h2]
      unfold refresh
      split <;> rfl
    have hinv := removed_ok (free := free) h hc h1 h2 h7 h8 h4 h5 s
    rw [← hfs] at hinv
    obtain ⟨a1, a2, a3, ⟨ps, ks, b, m, a4⟩, a5, a6, a7⟩ := enableSplit_ok hinv (splits t.fs) free (by
      intro he
      rw [hfs]
      have e5 : ({ refresh (removed t n free parts kparts lastKey r) r.splitDur with state := s } : Track).splitCount = splits (t.fs.drop n) := by
        rw [← h4]
        unfold refresh
        split <;> rfl
      have e6 : ({ refresh (removed t n free parts kparts lastKey r) r.splitDur with state := s } : Track).minSplit = t.minSplit := by
        unfold refresh
        split <;> rfl
      rw [e6, h.minSplit]
      rw [e5] at he
      exact (getMinSplit_drop n t.fs he).symm)
    have hr : ∃ p q, refresh (removed t n free parts kparts lastKey r) r.splitDur =
        { removed t n free parts kparts lastKey r with pending := p, startPts := q } := by
      unfold refresh
      split <;> exact ⟨_, _, rfl⟩
    obtain ⟨p, q, hr⟩ := hr
    refine ⟨c', _, rfl, bal_congr h9 a2, h10, a1, ?_, ?_, ?_, ?_, ?_, ?_, ?_, ?_, ?_, by rw [a5, hfs], by rw [← hfs]; exact a6,
      fun x _ => a7 x, fun x => absurd x h0⟩
    · rw [a4, hr]; rfl
    · rw [a4, hr]; rfl
    · rw [a4, hr]; rfl
    · rw [a4, hr]; rfl
    · rw [a4, hr]; rfl
    · rw [a3, hfs]
    · rw [a4, hr]
      change (if free = true then _ else _) = _
      simp [h0]
    · rw [a4, hr]
      change r.lastId + 1 = _
      rw [List.getLast?_map, h3]
      simp [h3'.1]
    · rw [a4, hr]
      exact h6

end Verif.Segmenter
