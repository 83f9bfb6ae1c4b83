import Verif.M3u8Body

/-! # Media playlists: initialization segments and periods -/

namespace Verif.M3u8

open Verif.Sub (str padded digits)
open Verif.M3u8Spec
open Verif.PName (Bytes Name dec write)
open Verif.SegmentInfo (PIter pinit mget Its Sorted valAt noBitrate)

/-! ## Initialization segments -/

theorem iterGet_again {x y : Nat} (h : x ≤ y) : ∀ (l : List Nat), iterGet y (iterGet x l).2 = iterGet y l
  | [] => rfl
  | [a] => rfl
  | a :: b :: l => by
    rw [iterGet]
    by_cases hb : b ≤ x
    · rw [if_pos hb, iterGet_again h (b :: l), iterGet, if_pos (by omega)]
    · rw [if_neg hb]

theorem infoLoop_again {x y : Nat} (h : x ≤ y) : ∀ (l : List (List Nat)) (m n : Nat), infoLoop y n (infoLoop x m l).2 = infoLoop y n l
  | [], _, _ => rfl
  | t :: l, m, n => by
    show infoLoop y n ((iterGet x t).2 :: (infoLoop x _ l).2) = infoLoop y n (t :: l)
    rw [infoLoop, infoLoop, iterGet_again h, infoLoop_again h l]

/-- The one that holds at `x`, or the first one. -/
def IsMap (x : Nat) (l : List Nat) (m : Nat) : Prop :=
  (m ∈ l ∧ m ≤ x ∧ ∀ y ∈ l, y ≤ x → y ≤ m) ∨ ((∀ y ∈ l, x < y ∧ m ≤ y) ∧ (m ∈ l ∨ l = [] ∧ m = invalid))

theorem iterGet_isMap (x : Nat) : ∀ (l : List Nat), l ≠ [] → l.Pairwise (· < ·) → IsMap x l (iterGet x l).1
  | [], h, _ => absurd rfl h
  | [a], _, _ => by
    rw [iterGet]
    by_cases h : a ≤ x
    · exact .inl ⟨by simp, h, by simp⟩
    · exact .inr ⟨by simp; omega, .inl (by simp)⟩
  | a :: b :: l, _, hs => by
    have h1 := List.pairwise_cons.1 hs
    have h2 := List.pairwise_cons.1 h1.2
    rw [iterGet]
    by_cases hb : b ≤ x
    · rw [if_pos hb]
      rcases iterGet_isMap x (b :: l) (by simp) h1.2 with ⟨i1, i2, i3⟩ | ⟨i1, _⟩
      · refine .inl ⟨by simp [i1], i2, fun y hy hx => ?_⟩
        rcases List.mem_cons.1 hy with rfl | hy
        · have := h1.1 _ i1; omega
        · exact i3 y hy hx
      · have := i1 b (by simp); omega
    · rw [if_neg hb]
      by_cases ha : a ≤ x
      · refine .inl ⟨by simp, ha, fun y hy hx => ?_⟩
        rcases List.mem_cons.1 hy with rfl | hy
        · omega
        · rcases List.mem_cons.1 hy with rfl | hy
          · omega
          · have := h2.1 y hy; omega
      · refine .inr ⟨fun y hy => ?_, .inl (by simp)⟩
        rcases List.mem_cons.1 hy with rfl | hy
        · exact ⟨by omega, Nat.le_refl _⟩
        · have := h1.1 y hy; exact ⟨by omega, by omega⟩

theorem mapStep_isMap {x map cur : Nat} {l t : List Nat} (hx : x < invalid) (h1 : IsMap x l map) (h2 : IsMap x t cur) (ht : t ≠ []) (hc : cur < invalid) :
    IsMap x (l ++ t) (mapStep x map cur) := by
  unfold mapStep
  rcases h2 with ⟨b1, b2, b3⟩ | ⟨b1, b2⟩
  · rcases h1 with ⟨a1, a2, a3⟩ | ⟨a1, a2⟩
    · rw [if_neg (by omega)]
      by_cases hg : cur > map
      · rw [if_pos ⟨hg, b2⟩]
        refine .inl ⟨by simp [b1], b2, fun y hy hy2 => ?_⟩
        rcases List.mem_append.1 hy with hy | hy
        · have := a3 y hy hy2; omega
        · exact b3 y hy hy2
      · rw [if_neg (by omega)]
        refine .inl ⟨by simp [a1], a2, fun y hy hy2 => ?_⟩
        rcases List.mem_append.1 hy with hy | hy
        · exact a3 y hy hy2
        · have := b3 y hy hy2; omega
    · have hm : map > x := by
        rcases a2 with a2 | a2
        · exact (a1 _ a2).1
        · omega
      rw [if_pos hm, if_pos (by omega)]
      refine .inl ⟨by simp [b1], b2, fun y hy hy2 => ?_⟩
      rcases List.mem_append.1 hy with hy | hy
      · have := (a1 y hy).1; omega
      · exact b3 y hy hy2
  · have b2 : cur ∈ t := by
      rcases b2 with b2 | b2
      · exact b2
      · exact absurd b2.1 ht
    have hcx := (b1 cur b2).1
    rcases h1 with ⟨a1, a2, a3⟩ | ⟨a1, a2⟩
    · rw [if_neg (by omega), if_neg (by omega)]
      refine .inl ⟨by simp [a1], a2, fun y hy hy2 => ?_⟩
      rcases List.mem_append.1 hy with hy | hy
      · exact a3 y hy hy2
      · have := (b1 y hy).1; omega
    · have hm : map > x := by
        rcases a2 with a2 | a2
        · exact (a1 _ a2).1
        · omega
      rw [if_pos hm]
      by_cases hg : cur < map
      · rw [if_pos hg]
        refine .inr ⟨fun y hy => ?_, .inl (by simp [b2])⟩
        rcases List.mem_append.1 hy with hy | hy
        · have := a1 y hy; exact ⟨this.1, by omega⟩
        · exact b1 y hy
      · rw [if_neg hg]
        refine .inr ⟨fun y hy => ?_, ?_⟩
        · rcases List.mem_append.1 hy with hy | hy
          · exact a1 y hy
          · have := b1 y hy; exact ⟨this.1, by omega⟩
        · rcases a2 with a2 | a2
          · exact .inl (by simp [a2])
          · omega

/-- Media infos of the tracks: each has one, and they are in order. -/
def MapsOk (l : List (List Nat)) : Prop := ∀ t ∈ l, t ≠ [] ∧ t.Pairwise (· < ·) ∧ ∀ x ∈ t, x < invalid

theorem IsMap.mem {x m : Nat} {l : List Nat} (h : IsMap x l m) (hl : l ≠ []) : m ∈ l := by
  rcases h with h | ⟨_, h | h⟩
  · exact h.1
  · exact h
  · exact absurd h.1 hl

theorem infoLoop_isMap {x : Nat} (hx : x < invalid) : ∀ (ts : List (List Nat)) (l : List Nat) (m : Nat), MapsOk ts → IsMap x l m →
    IsMap x (l ++ ts.flatten) (infoLoop x m ts).1
  | [], l, m, _, h => by simpa [infoLoop] using h
  | t :: ts, l, m, ho, h => by
    have h1 := ho t (by simp)
    have h2 := iterGet_isMap x t h1.1 h1.2.1
    have := infoLoop_isMap hx ts (l ++ t) _ (fun u hu => ho u (by simp [hu])) (mapStep_isMap hx h h2 h1.1 (h1.2.2 _ (h2.mem h1.1)))
    rw [infoLoop]
    simpa using this

theorem isMap_mapOf {c : Chan} {x m : Nat} (h : IsMap x c.infos.flatten m) : mapOf c x = m := by
  unfold mapOf
  rcases h with ⟨a1, a2, a3⟩ | ⟨a1, a2⟩
  · have : (c.infos.flatten.filter (· ≤ x)).max? = some m := by
      rw [List.max?_eq_some_iff]
      refine ⟨List.mem_filter.2 ⟨a1, by simpa using a2⟩, fun y hy => ?_⟩
      rw [List.mem_filter] at hy
      exact a3 y hy.1 (by simpa using hy.2)
    rw [this]
  · have h0 : c.infos.flatten.filter (· ≤ x) = [] := by
      rw [List.filter_eq_nil_iff]
      intro y hy
      have := (a1 y hy).1
      simp; omega
    rw [h0]
    rcases a2 with a2 | a2
    · have : c.infos.flatten.min? = some m := by
        rw [List.min?_eq_some_iff]
        exact ⟨a2, fun y hy => (a1 y hy).2⟩
      simp [this]
    · rw [a2.1, a2.2]; rfl

theorem infoGet_mapOf {c : Chan} (ho : MapsOk c.infos) {x : Nat} (hx : x < invalid) : (infoGet x c.infos).1 = mapOf c x := by
  have := infoLoop_isMap hx c.infos [] invalid ho (.inr ⟨by simp, .inr ⟨rfl, rfl⟩⟩)
  rw [List.nil_append] at this
  exact (isMap_mapOf this).symm

theorem mapOf_lt {c : Chan} (ho : MapsOk c.infos) (hne : c.infos ≠ []) {x : Nat} (hx : x < invalid) : mapOf c x < invalid := by
  have := infoLoop_isMap hx c.infos [] invalid ho (.inr ⟨by simp, .inr ⟨rfl, rfl⟩⟩)
  simp only [List.nil_append] at this
  have hf : c.infos.flatten ≠ [] := by
    cases hc : c.infos with
    | nil => exact absurd hc hne
    | cons t ts =>
      have := (ho t (by simp [hc])).1
      simp [this]
  have hm := this.mem hf
  obtain ⟨t, ht, hmt⟩ := List.mem_flatten.1 hm
  rw [isMap_mapOf this]
  exact (ho t ht).2.2 _ hmt

/-! ## Periods -/

/-- The number of segments of a period. -/
def count (p : Period) : Nat := (p.elts.map (·.count)).sum

/-- Periods that the reader of the response accepts (`ngx_pckg_ksmp_read_period`, ngx_pckg_ksmp.c:231-364). -/
def PersOk : Nat → List Period → Prop
  | _, [] => True
  | k, p :: ps => k ≤ p.idx ∧ p.elts ≠ [] ∧ (∀ e ∈ p.elts, 0 < e.count ∧ e.dur < 2 ^ 32) ∧ (∀ e ∈ p.elts.dropLast, e.dur ≠ 0) ∧
    (∀ e, p.elts.getLast? = some e → e.dur = 0 → e.count = 1 ∧ ps = []) ∧ p.idx + count p ≤ invalid ∧ PersOk (p.idx + count p) ps

theorem flat_nonzero {es : List Elt} (h : ∀ e ∈ es, e.dur ≠ 0) :
    (es.flatMap fun e => List.replicate e.count e.dur).filter (· ≠ 0) = es.flatMap fun e => List.replicate e.count e.dur := by
  rw [List.filter_eq_self]
  intro x hx
  obtain ⟨e, he, hx⟩ := List.mem_flatMap.1 hx
  have := List.eq_of_mem_replicate hx
  simp [this, h e he]

theorem flat_len (es : List Elt) : (es.flatMap fun e => List.replicate e.count e.dur).length = (es.map (·.count)).sum := by
  induction es with
  | nil => rfl
  | cons e es ih => simp [List.flatMap_cons] at ih ⊢

theorem elts_last {p : Period} (h : p.elts ≠ []) : ∃ e, p.elts.getLast? = some e ∧ p.elts = p.elts.dropLast ++ [e] := by
  refine ⟨p.elts.getLast h, List.getLast?_eq_some_getLast h, (List.dropLast_concat_getLast h).symm⟩

theorem written_durs {k : Nat} {p : Period} {ps : List Period} (h : PersOk k (p :: ps)) :
    ((written p).flatMap fun e => List.replicate e.count e.dur) = durs p ∧ count p = (durs p).length + (if pending p then 1 else 0) ∧
    (pending p = true → ps = []) ∧ (pending p = false → durs p ≠ []) ∧ ∀ x ∈ durs p, x < 2 ^ 32 := by
  obtain ⟨_, h1, h2, h3, h4, _, _⟩ := h
  obtain ⟨e, e1, e2⟩ := elts_last h1
  have hlt : ∀ x ∈ durs p, x < 2 ^ 32 := by
    intro x hx
    unfold durs at hx
    rw [List.mem_filter] at hx
    obtain ⟨e, he, hx⟩ := List.mem_flatMap.1 hx.1
    rw [List.eq_of_mem_replicate hx]
    exact (h2 e he).2
  unfold written pending
  rw [e1]
  dsimp only
  by_cases hz : e.dur = 0
  · obtain ⟨c1, c2⟩ := h4 e e1 hz
    have hd : durs p = p.elts.dropLast.flatMap fun e => List.replicate e.count e.dur := by
      unfold durs
      conv => lhs; rw [e2]
      rw [List.flatMap_append, List.filter_append, flat_nonzero h3]
      simp [hz]
    have hb : (e.dur == 0) = true := by simp [hz]
    rw [if_pos hb, if_pos hb]
    refine ⟨hd.symm, ?_, fun _ => c2, fun hf => (by rw [hb] at hf; cases hf), hlt⟩
    rw [hd, flat_len]
    unfold count
    conv => lhs; rw [e2]
    simp [c1]
  · have hd : durs p = p.elts.flatMap fun e => List.replicate e.count e.dur := by
      unfold durs
      apply flat_nonzero
      intro x hx
      rw [e2] at hx
      rcases List.mem_append.1 hx with hx | hx
      · exact h3 x hx
      · simp at hx; subst hx; exact hz
    have hb : ¬ (e.dur == 0) = true := by simp [hz]
    rw [if_neg hb, if_neg hb]
    refine ⟨hd.symm, ?_, fun h => absurd h hb, fun _ he => ?_, hlt⟩
    · rw [hd, flat_len]; rfl
    · have hl := flat_len p.elts
      rw [← hd, he] at hl
      rw [e2] at hl
      simp at hl
      have := (h2 e (by rw [e2]; simp)).1
      omega

/-- All of what is asked of a channel and of the configuration. -/
structure Ok (c : Chan) (f : Conf) : Prop where
  scale : c.timescale % 1000 = 0 ∧ 0 < c.timescale
  target : c.target + c.timescale / 2 < 2 ^ 32
  partDur : c.partDur < 2 ^ 31
  seq : c.seq < 2 ^ 32
  first : c.firstIdx < 2 ^ 32 ∧ c.skipPer ≤ c.firstIdx
  skip : c.skipSegs < 2 ^ 32 ∧ (c.skipSegs = 0 → c.skipPer = 0)
  until_ : nearest c.target c.timescale * f.skipPct * 10 < 2 ^ 41
  hold : c.partDur * f.holdPct * 10 < 2 ^ 51
  pers : PersOk 0 c.periods
  maps : c.infos ≠ [] ∧ MapsOk c.infos
  infos : InfosOk c
  ests : ∀ x, (f.est x).length = c.segInfos.length
  parts : PartsOk c
  dates : ∀ p ∈ c.periods, f.date = true → TmOk (f.gm (p.time / c.timescale))
  reps : ∀ v ∈ c.reps, ∀ r ∈ v.2, r.seq < 2 ^ 32 ∧ r.part < 2 ^ 32

/-- What the client knows goes with the playlist, when segments are skipped: the first period is either a new one, or goes on with the same
initialization segment. -/
def Joins (before : Before) (c : Chan) (f : Conf) : Prop :=
  c.skipSegs > 0 → ∃ p ps, c.periods = p :: ps ∧ c.lastSkip ≤ p.idx ∧ before.disc + (if p.idx = c.initIdx then 1 else 0) = c.firstIdx ∧
    before.map = mapAt c f c.lastSkip ∧ (p.idx ≠ c.initIdx → mapOf c p.idx = mapOf c c.lastSkip)

/-- What is known between periods. -/
structure PInv (c : Chan) (s : P) (r : St) (k : Nat) : Prop where
  dur : r.dur = none
  gap : r.gap = false
  parts : r.parts = []
  date : r.date = none
  q : ∃ j, j ≤ k ∧ Q c s.parts j
  its : Its c.segInfos s.its k
  infos : ∀ y, k ≤ y → infoGet y s.infos = infoGet y c.infos

/-- The state of the client after the start of a period. -/
def begun (c : Chan) (f : Conf) (r : St) (disc : Nat) (p : Period) : St :=
  { r with disc, map := mapAt c f p.idx, date := dateAt c f p.time }

theorem run_head (b : Before) (c : Chan) (f : Conf) {milli : Nat} (hc : c.timescale = 1000 * milli) (p : Period) (i lastMap disc : Nat) (r : St)
    (hd : f.date = true → TmOk (f.gm (p.time / c.timescale))) (hr : r.date = none)
    (h1 : disc = r.disc + if i > 0 || (decide (c.skipSegs > 0) && decide (p.idx = c.initIdx)) then 1 else 0)
    (h2 : f.cont.hasInit = true → (mapOf c p.idx ≠ lastMap ∧ (i > 0 ∨ c.skipSegs = 0 ∨ p.idx = c.initIdx)) ∨ r.map = mapAt c f p.idx)
    (h3 : f.cont.hasInit = false → r.map = none) :
    run b r (periodHead c f milli p i (mapOf c p.idx) lastMap).1 = some (begun c f r disc p) := by
  unfold periodHead
  dsimp only
  rw [run_append, run_append]
  have e1 : run b r (if i > 0 || (decide (c.skipSegs > 0) && decide (p.idx = c.initIdx)) then [str "#EXT-X-DISCONTINUITY"] else []) = some { r with disc := disc } := by
    rw [h1]
    split
    · rw [run, line_disc]; rfl
    · rfl
  rw [e1, Option.bind_some]
  have e2 : run b { r with disc := disc } (if f.cont.hasInit && mapOf c p.idx != lastMap && (decide (i > 0) || decide (c.skipSegs = 0) || decide (p.idx = c.initIdx)) then
      [str "#EXT-X-MAP:URI=\"" ++ (write c.id c.types (.init (mapOf c p.idx)) ++ [34])] else []) = some { r with disc := disc, map := mapAt c f p.idx } := by
    cases hi : f.cont.hasInit with
    | false =>
      have := h3 hi
      simp only [Bool.false_and, Bool.false_eq_true, if_false, run]
      unfold mapAt
      rw [hi]
      simp [← this]
    | true =>
      have hm : mapAt c f p.idx = some (write c.id c.types (.init (mapOf c p.idx))) := by unfold mapAt; rw [hi]; rfl
      split
      · rw [run, line_map, hm]; rfl
      · rename_i hn
        rcases h2 hi with h | h
        · exfalso; apply hn
          have := h.2
          simp only [Bool.true_and, Bool.and_eq_true, bne_iff_ne, ne_eq, Bool.or_eq_true, decide_eq_true_eq]
          exact ⟨h.1, by rcases this with h | h | h <;> simp [h]⟩
        · rw [run, ← h]
  rw [e2, Option.bind_some]
  unfold begun dateAt
  cases hf : f.date with
  | false => simp [run, ← hr]
  | true =>
    simp only [if_true]
    rw [run, line_date b _ f c.timescale milli p.time (hd hf), Option.bind_some, run, ms_eq hc]

/-- The parts of a pending segment. -/
def nextOf (c : Chan) (f : Conf) (p : Period) : List Part :=
  if pending p then partList c f (p.idx + (durs p).length) (p.time + (durs p).sum) 0 (partsAt c (p.idx + (durs p).length)) else []

/-- The state of the client after a period. -/
def ended (c : Chan) (f : Conf) (r : St) (p : Period) : St :=
  let l := perSegs c f p.idx r.disc r.map r.rate r.date (r.head.seq + r.head.skip + r.segs.length) p.idx p.time (durs p)
  { r with segs := r.segs ++ l, rate := rateAfter r.rate l, date := if durs p = [] then r.date else none,
           hint := hints c f r.hint (List.range' p.idx (count p)), parts := nextOf c f p }

theorem run_period (b : Before) (c : Chan) (f : Conf) (h : Ok c f) {milli : Nat} (hm : 0 < milli) (hc : c.timescale = 1000 * milli) {k : Nat}
    {p : Period} {ps : List Period} (hp : PersOk k (p :: ps)) (parts : List Parts) (its : List PIter) (r : St)
    (d1 : r.dur = none) (d2 : r.gap = false) (d3 : r.parts = []) {j : Nat} (hjk : j ≤ k) (hq : Q c parts j) (ht : Its c.segInfos its k) :
    run b r (writePeriod c f milli p parts its).1 = some (ended c f r p) ∧
    Q c (writePeriod c f milli p parts its).2.1 (p.idx + count p) ∧ Its c.segInfos (writePeriod c f milli p parts its).2.2 (p.idx + count p) := by
  obtain ⟨w1, w2, _, _, w5⟩ := written_durs hp
  have hk : k ≤ p.idx := hp.1
  unfold writePeriod
  dsimp only
  rw [eltsLoop_eq, w1]
  let s0 : S := { out := [], seg := p.idx, time := p.time, start := p.time / milli, last := 0, parts := parts.dropWhile (·.idx < p.idx), its }
  have hi0 : Inv c milli r s0 := ⟨d1, d2, d3, rfl, fun h => absurd rfl h, hq.start h.parts parts j p.idx (by omega), ht.mono hk⟩
  obtain ⟨ls, a1, a2, a3, a4, a5⟩ := steps_run b c f hm hc h.parts h.infos p.idx (h.ests p.idx) (durs p) s0 r hi0 w5
  have a1 : (steps c f.cont.ext milli (f.est p.idx) (durs p) s0).out = ls := by rw [a1]; rfl
  have a2 : run b r ls = some (rsteps c f p.idx r p.idx p.time (durs p)) := a2
  have a4 : (steps c f.cont.ext milli (f.est p.idx) (durs p) s0).seg = p.idx + (durs p).length := a4
  have a5 : (steps c f.cont.ext milli (f.est p.idx) (durs p) s0).time = p.time + (durs p).sum := a5
  have a3 : Inv c milli (rsteps c f p.idx r p.idx p.time (durs p)) (steps c f.cont.ext milli (f.est p.idx) (durs p) s0) := a3
  show run b r ((steps c f.cont.ext milli (f.est p.idx) (durs p) s0).out ++ _) = _ ∧ _
  rw [a1, run_append, a2, Option.bind_some]
  by_cases hpe : pending p = true
  · obtain ⟨b1, b2⟩ := parts_of b c f hm hc h.parts _ (rsteps c f p.idx r p.idx p.time (durs p)) a3.q
    rw [a4] at b1 b2
    rw [a5] at b1
    have hcount : count p = (durs p).length + 1 := by rw [w2, if_pos hpe]
    refine ⟨?_, ?_, ?_⟩
    · rw [if_pos hpe]
      refine b1.trans ?_
      rw [rsteps_eq]
      unfold ended nextOf
      rw [if_pos hpe, hcount, List.range'_1_concat, hints_append]
      simp [d3, hints]
    · show Q c (if pending p = true then partsOf c f.cont.ext milli (steps c f.cont.ext milli (f.est p.idx) (durs p) s0) else _).2 _
      rw [if_pos hpe, hcount]; exact b2
    · have := a3.its
      rw [a4] at this
      exact this.mono (by omega)
  · have hcount : count p = (durs p).length := by rw [w2, if_neg hpe]; rfl
    refine ⟨?_, ?_, ?_⟩
    · rw [if_neg hpe, rsteps_eq]
      unfold ended nextOf
      rw [if_neg hpe, hcount, run, d3]
    · show Q c (if pending p = true then _ else (([] : List Bytes), (steps c f.cont.ext milli (f.est p.idx) (durs p) s0).parts)).2 _
      rw [if_neg hpe, hcount, ← a4]; exact a3.q
    · have := a3.its
      rw [a4] at this
      rw [hcount]; exact this

end Verif.M3u8
