import Verif.SegmenterStep
import Verif.SegmenterCheck

/-!
# The channel: segments of the timeline, and the states that can be reached
-/

namespace Verif.Segmenter

/-- The segments follow each other from the time `e`: a segment does not start before the end of the one before it, and when
it starts later it starts a period. -/
def Follow (e : Int) : List SegOut → Prop
  | [] => True
  | s :: r => e ≤ s.start ∧ (e ≠ s.start → s.newPeriod = true) ∧ s.start < s.stop ∧ Follow s.stop r

/-- The end of the last segment. -/
def endOf (e : Int) : List SegOut → Int
  | [] => e
  | s :: r => endOf s.stop r

theorem follow_push : ∀ (out : List SegOut) (e : Int) (s : SegOut), Follow e out → endOf e out ≤ s.start →
    (endOf e out ≠ s.start → s.newPeriod = true) → s.start < s.stop → Follow e (out ++ [s]) ∧ endOf e (out ++ [s]) = s.stop := by
  intro out
  induction out with
  | nil => intro e s _ h1 h2 h3; exact ⟨⟨h1, h2, h3, trivial⟩, rfl⟩
  | cons x out ih =>
    intro e s h h1 h2 h3
    obtain ⟨a, b⟩ := ih x.stop s h.2.2.2 h1 h2 h3
    exact ⟨⟨h.1, h.2.1, h.2.2.1, a⟩, b⟩

/-- What holds for the segments of the timeline. `e0` is the end of the last segment before, `f0` says that the first segment
starts a period. -/
structure OutOk (lo : Nat) (e0 : Int) (f0 : Bool) (ch : Chan) : Prop where
  idx : ch.out.map (·.index) = List.range' lo ch.out.length
  next : ch.nextIndex = lo + ch.out.length
  follow : Follow e0 ch.out
  le : endOf e0 ch.out ≤ ch.c.lastEnd
  gap : endOf e0 ch.out ≠ ch.c.lastEnd → ch.c.force = true
  first : ∀ s ∈ ch.out.head?, f0 = true → s.newPeriod = true
  pre : ch.out = [] → f0 = true → ch.c.force = true
  nonneg : 0 ≤ ch.c.lastEnd

/-- What holds for a channel. -/
structure Inv (lo : Nat) (e0 : Int) (f0 : Bool) (B NS : Prop) (ch : Chan) : Prop where
  tracks : Tracks lo ch.nextIndex B NS ch.c ch.ts
  out : OutOk lo e0 f0 ch

theorem outOk_up {lo : Nat} {e0 : Int} {f0 : Bool} {ch : Chan} (h : OutOk lo e0 f0 ch) (c : Ctx) (ts : List Track) (hc : ch.c.up c) :
    OutOk lo e0 f0 { ch with c, ts } :=
  ⟨h.idx, h.next, h.follow, by rw [hc.1]; exact h.le, fun x => hc.2 (h.gap (by rw [← hc.1]; exact x)), h.first,
    fun x y => hc.2 (h.pre x y), by rw [hc.1]; exact h.nonneg⟩

/-- Settings that the configuration allows (ngx_live_segmenter.c:3570-3577). -/
structure CfgOk (g : Cfg) : Prop where
  min : 0 < g.minDur
  seg : 0 < g.segDur

theorem segTimes_ok {g : Cfg} (hg : CfgOk g) (c : Ctx) (ts : List Track) (m : Int) :
    Sat (segTimes g c ts m) fun x => c.lastEnd ≤ x.1 ∧ x.1 < x.2.1 := by
  have hm := hg.min
  have hs := hg.seg
  unfold segTimes
  simp only
  obtain ⟨start, hst⟩ : ∃ s, (if m > c.lastEnd + ((if c.force = true then 0 else g.fwdSkip : Nat) : Int) then m else c.lastEnd) = s := ⟨_, rfl⟩
  have h1 : c.lastEnd ≤ start := by rw [← hst]; split <;> omega
  rw [hst]
  split
  · rw [sat_ok]; exact ⟨h1, by show start < start + _; omega⟩
  · split
    · simp
    · rw [sat_ok]
      refine ⟨h1, ?_⟩
      generalize choose _ _ _ _ _ _ = target
      show start < (if target < start + g.minDur then start + (g.minDur : Int) else target)
      split <;> omega

/-- A channel after a step of the loop. -/
def Step.chan : Step → Chan
  | .leave ch => ch
  | .more ch => ch

def Step.isMore : Step → Bool
  | .leave _ => false
  | .more _ => true

/-- What a pass gives. -/
def PassOk (lo : Nat) (e0 : Int) (f0 : Bool) (B NS : Prop) (n : Nat) (s : Step) : Prop :=
  Inv lo e0 f0 B NS s.chan ∧ (s.isMore = true → NS → sz s.chan.ts < n)

theorem leave_ok {lo : Nat} {e0 : Int} {f0 : Bool} {B NS : Prop} {ch : Chan} (h : Inv lo e0 f0 B NS ch) (g : Cfg) (n : Nat) :
    PassOk lo e0 f0 B NS n (leave g ch) := by
  unfold leave
  refine ⟨?_, fun h => by simp [Step.isMore] at h⟩
  · show Inv lo e0 f0 B NS (if _ then _ else _)
    split
    · exact ⟨h.tracks, ⟨h.out.idx, h.out.next, h.out.follow, h.out.le, h.out.gap, h.out.first, h.out.pre, h.out.nonneg⟩⟩
    · exact h

/-- A channel in which the indexes of the tracks are valid, and the times of the next segment. -/
structure Ready (lo : Nat) (e0 : Int) (f0 : Bool) (B NS : Prop) (ch : Chan) (start stop : Int) : Prop where
  inv : Inv lo e0 f0 B NS ch
  le : ch.c.lastEnd ≤ start
  gap : ch.c.lastEnd ≠ start → ch.c.force = true
  lt : start < stop

theorem ready_up {lo : Nat} {e0 : Int} {f0 : Bool} {B NS : Prop} {ch : Chan} {start stop : Int} (h : Ready lo e0 f0 B NS ch start stop)
    {c : Ctx} {ts : List Track} (hc : ch.c.up c) (ht : Tracks lo ch.nextIndex B NS c ts) : Ready lo e0 f0 B NS { ch with c, ts } start stop :=
  ⟨⟨ht, outOk_up h.inv.out c ts hc⟩, by rw [hc.1]; exact h.le, fun x => hc.2 (h.gap (by rw [← hc.1]; exact x)), h.lt⟩

theorem commit_sat {lo : Nat} {e0 : Int} {f0 : Bool} {B NS : Prop} {ch : Chan} {start stop : Int} (h : Ready lo e0 f0 B NS ch start stop)
    (hf : ∀ t ∈ ch.ts, Fresh t) (g : Cfg) (env : Env) : Sat (commit g env ch start stop) (PassOk lo e0 f0 B NS (sz ch.ts)) := by
  unfold commit
  have hlo : lo ≤ ch.nextIndex := by rw [h.inv.out.next]; omega
  refine sat_bind (createSegment_sat (c := { ch.c with curReady := g.ready, nextForce := false }) h.inv.tracks hf hlo env) ?_
  rintro ⟨c, ts⟩ ⟨h1, h2, h3⟩
  rw [sat_ok]
  have hup : ch.c.up c := h2
  have ho := h.inv.out
  obtain ⟨p1, p2⟩ := follow_push ch.out e0 ⟨ch.nextIndex, start, stop, u32 (stop - start), c.force⟩ ho.follow
    (Int.le_trans ho.le h.le) (by
      intro hne
      show c.force = true
      by_cases e : endOf e0 ch.out = ch.c.lastEnd
      · rw [e] at hne
        exact hup.2 (h.gap hne)
      · exact hup.2 (ho.gap e)) h.lt
  refine ⟨⟨h1, ⟨?_, ?_, p1, ?_, ?_, ?_, ?_, ?_⟩⟩, fun _ ns => h3 ns⟩
  · show (ch.out ++ [_]).map _ = List.range' lo (ch.out ++ [_]).length
    rw [List.map_append, ho.idx, List.length_append]
    simp only [List.map_cons, List.map_nil, List.length_cons, List.length_nil, Nat.zero_add]
    rw [List.range'_1_concat, ho.next]
  · show ch.nextIndex + 1 = lo + (ch.out ++ [_]).length
    rw [ho.next]; simp [Nat.add_assoc]
  · show endOf e0 (ch.out ++ [_]) ≤ stop
    rw [p2]; exact Int.le_refl _
  · intro x
    exact absurd p2 x
  · intro s hs f
    replace hs : s ∈ (ch.out ++ [(⟨ch.nextIndex, start, stop, u32 (stop - start), c.force⟩ : SegOut)]).head? := hs
    cases hout : ch.out with
    | nil =>
      rw [hout] at hs
      simp only [List.nil_append, List.head?_cons, Option.mem_def, Option.some.injEq] at hs
      rw [← hs]
      exact hup.2 (ho.pre hout f)
    | cons x xs =>
      rw [hout] at hs
      exact ho.first s (by rw [hout]; exact hs) f
  · intro x
    exact absurd x (by show ch.out ++ [_] ≠ []; simp)
  · show 0 ≤ stop
    have := ho.nonneg
    have := h.le
    have := h.lt
    omega

theorem abort_sat {lo : Nat} {e0 : Int} {f0 : Bool} {B NS : Prop} {ch : Chan} {start stop : Int} (h : Ready lo e0 f0 B NS ch start stop)
    (hf : ∀ t ∈ ch.ts, Fresh t) : Sat (abort ch stop) (PassOk lo e0 f0 B NS (sz ch.ts)) := by
  unfold abort
  refine sat_bind (dispose_sat h.inv.tracks hf stop) ?_
  rintro ⟨c, ts⟩ ⟨h1, h2, h3⟩
  rw [sat_ok]
  refine ⟨⟨h1, ?_⟩, fun _ ns => h3 ns⟩
  have ho := h.inv.out
  rcases h2 with h2 | ⟨h2, h4⟩
  · exact outOk_up ho c ts h2
  · have e : c.lastEnd = stop := h2
    have hle := ho.le
    have hn := ho.nonneg
    have h5 := h.le
    have h6 := h.lt
    refine ⟨ho.idx, ho.next, ho.follow, ?_, fun _ => h4, ho.first, fun _ _ => h4, ?_⟩
    · show endOf e0 ch.out ≤ c.lastEnd
      omega
    · show 0 ≤ c.lastEnd
      omega

/-- The answer of the filler has a duration. -/
def Env.Ok (env : Env) : Prop := ∀ d, env.fill = some (.ok d) → 0 < d

theorem fillEnd_sat {env : Env} (he : env.Ok) {start stop : Int} (h : start < stop) : Sat (fillEnd env start stop) fun x => start < x := by
  unfold fillEnd
  cases hf : env.fill with
  | none => exact h
  | some r =>
    cases r with
    | ok d =>
      have := he d hf
      rw [sat_ok]
      omega
    | done => exact h
    | fail => trivial

theorem finish_sat {lo : Nat} {e0 : Int} {f0 : Bool} {B NS : Prop} {ch : Chan} {start stop split : Int} (h : Ready lo e0 f0 B NS ch start stop)
    (hs : split = 0 ∨ ∀ t ∈ ch.ts, Fresh t) (g : Cfg) {env : Env} (he : env.Ok) {n : Nat} (hn : sz ch.ts ≤ n) :
    Sat (finish g env ch start stop split) (PassOk lo e0 f0 B NS n) := by
  have mono : ∀ m, m ≤ n → ∀ s, PassOk lo e0 f0 B NS m s → PassOk lo e0 f0 B NS n s :=
    fun m hm s hs => ⟨hs.1, fun a b => Nat.lt_of_lt_of_le (hs.2 a b) hm⟩
  unfold finish
  refine sat_bind (fillEnd_sat he h.lt) ?_
  intro stop' hlt
  have hr : Ready lo e0 f0 B NS ch start stop' := ⟨h.inv, h.le, h.gap, hlt⟩
  split
  · refine sat_bind (setSplit_sat hr.inv.tracks g start stop') ?_
    rintro ⟨c, ts, a⟩ ⟨h1, h2, h3, h4⟩
    have hr' := ready_up hr h2 h1
    have hz : sz ts ≤ n := by dsimp only at h3; omega
    dsimp only
    split
    · exact sat_mono (abort_sat hr' h4) (mono _ hz)
    · exact sat_mono (commit_sat hr' h4 g env) (mono _ hz)
  · rename_i heq
    rcases hs with hs | hs
    · have h1 := h.inv.out.nonneg
      have h2 := h.le
      omega
    · exact sat_mono (commit_sat hr hs g env) (mono _ hn)

theorem cut_sat {lo : Nat} {e0 : Int} {f0 : Bool} {B NS : Prop} {ch : Chan} {start stop : Int} (h : Inv lo e0 f0 B NS ch)
    (hle : ch.c.lastEnd ≤ start) (hlt : start < stop) (g : Cfg) {env : Env} (he : env.Ok) (video : Bool) {n : Nat} (hn : sz ch.ts ≤ n) :
    Sat (cut g env ch video start stop) (PassOk lo e0 f0 B NS n) := by
  have mono : ∀ m, m ≤ n → ∀ s, PassOk lo e0 f0 B NS m s → PassOk lo e0 f0 B NS n s :=
    fun m hm s hs => ⟨hs.1, fun a b => Nat.lt_of_lt_of_le (hs.2 a b) hm⟩
  unfold cut
  obtain ⟨ch', e, hr, hz⟩ : ∃ ch', (if start ≠ ch.c.lastEnd then { ch with c := { ch.c with force := true } } else ch) = ch' ∧
      Ready lo e0 f0 B NS ch' start stop ∧ sz ch'.ts ≤ n := by
    refine ⟨_, rfl, ?_, ?_⟩
    · split
      · exact ⟨⟨h.tracks, outOk_up h.out { ch.c with force := true } ch.ts ⟨rfl, fun _ => rfl⟩⟩, hle, fun _ => rfl, hlt⟩
      · rename_i e
        exact ⟨h, hle, fun x => absurd (fun y : start = _ => x y.symm) (fun z => e z), hlt⟩
    · split <;> exact hn
  simp only [e]
  split
  · refine sat_bind (setSplit_sat hr.inv.tracks g start stop) ?_
    rintro ⟨c, ts, a⟩ ⟨h1, h2, h3, h4⟩
    have hr' := ready_up hr h2 h1
    have hz : sz ts ≤ n := by dsimp only at h3; omega
    dsimp only
    split
    · exact sat_mono (abort_sat hr' h4) (mono _ hz)
    · exact finish_sat hr' (.inr h4) g he hz
  · exact finish_sat hr (.inl rfl) g he hz

theorem pass_sat {lo : Nat} {e0 : Int} {f0 : Bool} {B NS : Prop} {ch : Chan} (h : Inv lo e0 f0 B NS ch) {g : Cfg} (hg : CfgOk g) {env : Env}
    (he : env.Ok) : Sat (pass g env ch) (PassOk lo e0 f0 B NS (sz ch.ts)) := by
  unfold pass
  split
  · rw [sat_ok]; exact leave_ok h g _
  · refine sat_bind (prepare_sat h.tracks g) ?_
    rintro ⟨c, ts, a⟩ ⟨h1, h2, h3⟩
    have hi : Inv lo e0 f0 B NS { ch with c, ts } := ⟨h1, outOk_up h.out c ts (Ctx.same_up h2)⟩
    dsimp only
    split
    · rw [sat_ok]; exact leave_ok hi g _
    · split
      · rw [sat_ok]
        exact leave_ok ⟨h1, outOk_up hi.out { c with force := true } ts ⟨rfl, fun _ => rfl⟩⟩ g _
      · split
        · simp
        · refine sat_bind (segTimes_ok hg c ts a.2) ?_
          rintro ⟨start, stop, m⟩ ⟨h4, h5⟩
          dsimp only
          split
          · rw [sat_ok]
            exact ⟨hi, fun x => by simp [Step.isMore] at x⟩
          · exact cut_sat hi h4 h5 g he _ h3

/-! ## Events -/

theorem split_at {ts : List α} {n : Nat} {t : α} (h : ts[n]? = some t) : ts = ts.take n ++ t :: ts.drop (n + 1) ∧ ∀ u, ts.set n u = ts.take n ++ u :: ts.drop (n + 1) := by
  obtain ⟨hn, e⟩ := List.getElem?_eq_some_iff.1 h
  refine ⟨?_, fun u => List.set_eq_take_append_cons_drop .. |>.trans (if_pos hn)⟩
  rw [← e, List.getElem_cons_drop, List.take_append_drop]

theorem onTrack_sat {lo : Nat} {e0 : Int} {f0 : Bool} {B NS : Prop} {ch : Chan} (h : Inv lo e0 f0 B NS ch) (n : Nat)
    (f : Ctx → Track → Res (Ctx × Track))
    (hf : ∀ xs t ys, Bal ch.c (xs ++ t :: ys) → Good lo ch.nextIndex B NS t →
      Sat (f ch.c t) fun x => Bal x.1 (xs ++ x.2 :: ys) ∧ ch.c.up x.1 ∧ Good lo ch.nextIndex B NS x.2) :
    Sat (onTrack ch n f) (Inv lo e0 f0 B NS) := by
  unfold onTrack
  split
  · exact h
  · rename_i t ht
    obtain ⟨e1, e2⟩ := split_at ht
    obtain ⟨hb, hg⟩ := h.tracks
    rw [e1] at hb hg
    refine sat_bind (hf _ t _ hb (hg t (mem_mid _ _ t))) ?_
    rintro ⟨c, t'⟩ ⟨h1, h2, h3⟩
    rw [sat_ok]
    rw [e2]
    exact ⟨⟨h1, good_mid hg h3⟩, outOk_up h.out c _ h2⟩

theorem addFrame_sat {lo k : Nat} {B NS : Prop} {c : Ctx} {xs ys : List Track} {t : Track} (hb : Bal c (xs ++ t :: ys))
    (h : Good lo k B NS t) (g : Cfg) (id : Nat) (created dts delay : Int) (key : Bool) (data : List UInt8) (hd : dts < 2 ^ 63)
    (hn : B → -2 ^ 30 ≤ delay ∧ delay < 2 ^ 30) :
    Sat (addFrame g c t id created dts delay key data) fun x => Bal x.1 (xs ++ x.2 :: ys) ∧ c.up x.1 ∧ Good lo k B NS x.2 := by
  unfold addFrame
  split
  · exact ⟨hb, Ctx.up_refl c, h⟩
  · rename_i h1
    split
    · exact ⟨hb, Ctx.up_refl c, h⟩
    · rename_i h2
      split
      · exact ⟨hb, Ctx.up_refl c, h⟩
      · rename_i h3
        obtain ⟨p1, p2⟩ := pushFrame_ok g h.inv ⟨id, created, dts + delay, dts, key, data⟩
          (by
            show dts + delay < invalid
            unfold invalid at h1 ⊢
            omega)
          (by omega)
          (by
            intro hm hc
            cases hk : key with
            | true => rfl
            | false => exact absurd ⟨hk, hc, hm⟩ h3)
        have hg := good_push h p1 p2 (by
          intro b
          have := hn b
          show -2 ^ 30 ≤ dts + delay - dts ∧ dts + delay - dts < 2 ^ 30
          omega)
        have hb' := bal_congr hb p2.state
        simp only
        split
        · exact ⟨hb', Ctx.up_refl c, hg⟩
        · obtain ⟨c2, e, hb2, hc2⟩ := setState_ok hb' (if (pushFrame g t ⟨id, created, dts + delay, dts, key, data⟩).pending ≥ (c.curReady : Int)
            then .ready else .pending)
          rw [e, sat_ok]
          exact ⟨hb2, Ctx.same_up hc2, good_state hg _⟩

theorem startStream_sat {lo k : Nat} {B NS : Prop} {c : Ctx} {xs ys : List Track} {t : Track} (hb : Bal c (xs ++ t :: ys))
    (h : Good lo k B NS t) (g : Cfg) (initial : Nat) :
    Sat (startStream g c t initial) fun x => Bal x.1 (xs ++ x.2.1 :: ys) ∧ c.up x.1 ∧ Good lo k B NS x.2.1 ∧
      initial + x.2.2 = (if initial ≤ t.nextId ∧ t.nextId - initial ≤ g.maxSkip then t.nextId else initial) ∧
      x.2.1.nextId = (if t.nextId - initial ≤ g.maxSkip then t.nextId else initial) := by
  unfold startStream
  obtain ⟨c2, t2, e, hb2, hc2, hi, hm, hf, hl, hn, hs, _⟩ := removeAll_ok hb
  rw [e, Res.bind_ok]
  have hg := good_reset h hi hm hf hl hn hs
  simp only [hn]
  split
  · split
    · rw [sat_ok]
      refine ⟨bal_congr (t' := { t2 with nextId := initial, log := t2.log ++ [.jump initial] }) hb2 rfl, Ctx.same_up hc2, good_jump hg initial, ?_, ?_⟩
      · simp only
        rw [if_neg (by omega)]
        rfl
      · simp only
        rw [if_neg (by omega)]
    · rw [sat_ok]
      refine ⟨hb2, Ctx.same_up hc2, hg, ?_, ?_⟩
      · simp only
        rw [if_pos (by omega)]
        omega
      · simp only [hn]
        rw [if_pos (by omega)]
  · rw [sat_ok]
    refine ⟨hb2, Ctx.same_up hc2, hg, ?_, ?_⟩
    · simp only
      split <;> omega
    · simp only [hn]
      rw [if_pos (by omega)]

theorem bal_new {c : Ctx} {ts : List Track} (h : Bal c ts) (n : Nat) (t : Track) (ht : t.state = .inactive) :
    Bal { c with nInactive := c.nInactive + 1 } (ts.take n ++ t :: ts.drop n) := by
  have e : ∀ p : Track → Bool, (ts.take n ++ t :: ts.drop n).countP p = ts.countP p + if p t then 1 else 0 := by
    intro p
    conv => rhs; rw [← List.take_append_drop n ts]
    rw [List.countP_append, List.countP_append, List.countP_cons]
    omega
  unfold Bal at h ⊢
  simp only [e, ht]
  simpa using h

theorem leaveState_ok {c : Ctx} {xs ys : List Track} {t : Track} (h : Bal c (xs ++ t :: ys)) :
    ∃ c', leaveState c t.state = .ok c' ∧ Bal c' (xs ++ ys) ∧ c.same c' := by
  unfold Bal at h
  simp only [List.countP_append, List.countP_cons] at h
  cases ht : t.state <;> simp only [ht, leaveState] at h ⊢ <;> simp at h
  · rw [if_neg (by omega)]
    refine ⟨_, rfl, ?_, rfl, rfl, rfl, rfl⟩
    unfold Bal
    simp only [List.countP_append]
    omega
  · rw [if_neg (by omega)]
    refine ⟨_, rfl, ?_, rfl, rfl, rfl, rfl⟩
    unfold Bal
    simp only [List.countP_append]
    omega
  · rw [if_neg (by omega)]
    refine ⟨_, rfl, ?_, rfl, rfl, rfl, rfl⟩
    unfold Bal
    simp only [List.countP_append]
    omega

theorem freeTrack_sat {lo : Nat} {e0 : Int} {f0 : Bool} {B NS : Prop} {ch : Chan} (h : Inv lo e0 f0 B NS ch) (g : Cfg) (n : Nat) :
    Sat (freeTrack g ch n) (Inv lo e0 f0 B NS) := by
  unfold freeTrack
  split
  · exact h
  · rename_i t ht
    obtain ⟨e1, _⟩ := split_at ht
    obtain ⟨hb, hg⟩ := h.tracks
    have e2 : ch.ts.eraseIdx n = ch.ts.take n ++ ch.ts.drop (n + 1) := List.eraseIdx_eq_take_drop_succ ch.ts n
    rw [e1] at hb
    obtain ⟨c, e, hb', hc⟩ := leaveState_ok hb
    rw [e, Res.bind_ok, sat_ok]
    have hg' : ∀ u ∈ ch.ts.eraseIdx n, Good lo ch.nextIndex B NS u := fun u hu => hg u (List.mem_of_mem_eraseIdx hu)
    rw [← e2] at hb'
    split
    · exact ⟨⟨hb', hg'⟩, outOk_up h.out { c with curReady := g.initReady } _ ⟨(Ctx.same_up hc).1, (Ctx.same_up hc).2⟩⟩
    · exact ⟨⟨hb', hg'⟩, outOk_up h.out c _ (Ctx.same_up hc)⟩

/-- What the caller guarantees: times are `int64_t`; the filler has a duration. With `B`, delays are small; with `NS` there
are no subtitle tracks. -/
def Guard (B NS : Prop) : Op → Prop
  | .addTrack _ media _ _ _ => NS → media ≠ .subtitle
  | .frame _ _ _ dts delay _ _ => dts < 2 ^ 63 ∧ (B → -2 ^ 30 ≤ delay ∧ delay < 2 ^ 30)
  | .pass env => env.Ok
  | _ => True

theorem step_sat {lo : Nat} {e0 : Int} {f0 : Bool} {B NS : Prop} {ch : Chan} (h : Inv lo e0 f0 B NS ch) {g : Cfg} (hg : CfgOk g) {op : Op}
    (ho : Guard B NS op) : Sat (step g ch op) (Inv lo e0 f0 B NS) := by
  unfold step
  cases op with
  | addTrack n media filler hasLast nextId =>
    simp only [addTrack, sat_ok]
    obtain ⟨hb, ht⟩ := h.tracks
    refine ⟨⟨bal_new hb n _ rfl, ?_⟩, outOk_up h.out _ _ ⟨rfl, fun x => x⟩⟩
    intro u hu
    rcases List.mem_append.1 hu with hu | hu
    · exact ht u (List.mem_of_mem_take hu)
    · rcases List.mem_cons.1 hu with rfl | hu
      · exact good_new lo _ B NS media filler hasLast nextId ho
      · exact ht u (List.mem_of_mem_drop hu)
  | freeTrack n => exact freeTrack_sat h g n
  | frame n id created dts delay key data =>
    exact onTrack_sat h n _ fun xs t ys hb ht => addFrame_sat hb ht g id created dts delay key data ho.1 ho.2
  | info n =>
    refine onTrack_sat h n _ fun xs t ys hb ht => ?_
    rw [sat_ok]
    refine ⟨bal_congr (t' := addMediaInfo t) hb rfl, Ctx.up_refl _, ?_⟩
    exact ⟨⟨ht.inv.parts, ht.inv.kparts, ht.inv.count, ht.inv.le, ht.inv.start, ht.inv.last, ht.inv.head, ht.inv.split, ht.inv.pts, ht.inv.keyPts,
      ht.inv.kfs, ht.inv.pending, ht.inv.splitCount, ht.inv.minSplit⟩, ht.cons, ht.segs, ht.order, ht.near, ht.nextId, ht.nosub⟩
  | start n initial =>
    refine onTrack_sat h n _ fun xs t ys hb ht => ?_
    refine sat_bind (startStream_sat hb ht g initial) ?_
    rintro ⟨c, t', s⟩ ⟨h1, h2, h3, _⟩
    rw [sat_ok]
    exact ⟨h1, h2, h3⟩
  | inactive n =>
    refine onTrack_sat h n _ fun xs t ys hb ht => ?_
    obtain ⟨c2, e, hb2, hc2⟩ := setState_ok hb .inactive
    rw [e, sat_ok]
    exact ⟨hb2, Ctx.same_up hc2, good_state ht _⟩
  | conf curReady =>
    simp only [sat_ok]
    exact ⟨h.tracks, outOk_up h.out { ch.c with curReady } ch.ts ⟨rfl, fun x => x⟩⟩
  | pass env =>
    refine sat_bind (pass_sat h hg ho) ?_
    rintro s ⟨h1, _⟩
    cases s with
    | leave ch' => exact h1
    | more ch' => exact h1

/-- The states of a channel that can be reached. The channel starts without tracks, after the time `e0`, before the segment
with the index `lo`; `f0` says that the first segment starts a period: a new channel has `e0 = 0` and `f0 = true`
(ngx_live_segmenter_channel_init, ngx_live_segmenter.c:3595-3657), for a channel that is restored the timelines give them
(ngx_live_segmenter_channel_read, ngx_live_segmenter.c:3690-3717). The settings may change with every event. -/
inductive Reach (lo : Nat) (e0 : Int) (f0 : Bool) (B NS : Prop) : Chan → Prop where
  | init (curReady : Nat) (h : 0 ≤ e0) : Reach lo e0 f0 B NS { c := { curReady, lastEnd := e0, force := f0 }, ts := [], nextIndex := lo }
  | step {ch ch' : Chan} {g : Cfg} {op : Op} (h : Reach lo e0 f0 B NS ch) (hg : CfgOk g) (ho : Guard B NS op) (e : step g ch op = .ok ch') :
      Reach lo e0 f0 B NS ch'

theorem reach_inv {lo : Nat} {e0 : Int} {f0 : Bool} {B NS : Prop} {ch : Chan} (h : Reach lo e0 f0 B NS ch) : Inv lo e0 f0 B NS ch := by
  induction h with
  | init curReady h =>
    exact ⟨⟨⟨rfl, rfl, rfl⟩, by simp⟩, ⟨rfl, rfl, trivial, Int.le_refl _, fun x => absurd rfl x, by simp, fun _ x => x, h⟩⟩
  | step _ hg ho e ih =>
    have := step_sat ih hg ho
    rw [e] at this
    exact this

end Verif.Segmenter
