import Verif.KmpInProps

/-!
# Property C18: numbers of frames, and which frames are delivered
-/

namespace Verif.KmpIn

/-! ## Specification -/

def Packet.isFrame (p : Packet) : Prop := ptype p.raw = tFrame
def Packet.isInfo (p : Packet) : Prop := ptype p.raw = tMediaInfo

instance (p : Packet) : Decidable p.isFrame := by unfold Packet.isFrame; infer_instance
instance (p : Packet) : Decidable p.isInfo := by unfold Packet.isInfo; infer_instance

/-- The number of frame packets. -/
def frames (ps : List Packet) : Nat := (ps.filter (fun p => decide p.isFrame)).length

/-- A media info packet says what kind of media the frames behind it are: 0 is video, 2 is subtitles. -/
def Packet.media (p : Packet) : Nat := field (p.body.take 32) 0 4

/-- A frame packet that has data and is marked as a key frame. -/
def Packet.isKey (p : Packet) : Prop := p.isFrame ∧ dsize p.raw ≠ 0 ∧ field (p.body.take 24) 16 4 % 2 = 1

/-- The packet `p`, with the packets `pre` before it, is delivered as a frame, when `s` frames are to be
skipped: it is a frame packet behind the first `s` of them, has data, and there is media info before it; a
subtitle frame has a duration; a video frame is a key frame, or there was one since the media info, or (only
if `w`) some of the skipped frames came after the media info. -/
def Delivered (s : Nat) (w : Bool) (pre : List Packet) (p : Packet) : Prop :=
  p.isFrame ∧ s ≤ frames pre ∧ dsize p.raw ≠ 0 ∧
  ∃ before info after, pre = before ++ info :: after ∧ info.isInfo ∧ (∀ q ∈ after, ¬ q.isInfo) ∧
    (info.media = 2 → 0 < field (p.body.take 24) 20 4 ∧ field (p.body.take 24) 20 4 < 2 ^ 31) ∧
    (info.media = 0 → p.isKey ∨
      (∃ b q c, after = b ++ q :: c ∧ q.isKey ∧ s ≤ frames (before ++ info :: b)) ∨
      (w = true ∧ frames before < s))

/-- The event for the frame packet `p` with the number `id`. -/
def Packet.event (id : Nat) (p : Packet) : Event :=
  let f := p.body.take 24
  .frame id (field f 0 8) (field f 8 8) (field f 16 4 % 2) (field f 20 4) (p.body.drop (hsize p.raw - 16))
    (dsize p.raw)

open Classical in
/-- The frame events for the packets `ps` behind the packets `pre`, when the first frame has the number
`f`. -/
noncomputable def delivered (f s : Nat) (w : Bool) : List Packet → List Packet → List Event
  | _, [] => []
  | pre, p :: ps =>
    (if Delivered s w pre p then [p.event ((f + frames pre) % 2 ^ 64)] else []) ++ delivered f s w (pre ++ [p]) ps

/-- The event is a frame. -/
def Event.isFrame : Event → Bool
  | .frame .. => true
  | _ => false

/-! ## Lemmas -/

theorem frames_append (a b : List Packet) : frames (a ++ b) = frames a + frames b := by
  unfold frames
  rw [List.filter_append, List.length_append]

theorem frames_one (p : Packet) : frames [p] = if p.isFrame then 1 else 0 := by
  unfold frames
  by_cases h : p.isFrame <;> simp [h]

/-- What the receiver knows after the packets `pre`, when the first frame had the number `f`, and `s` frames
are skipped. -/
def Knows {σ : Type} (f s : Nat) (w : Bool) (pre : List Packet) (r : Rx σ) : Prop :=
  r.cur = (f + frames pre) % 2 ^ 64 ∧ r.skipLeft = s - frames pre ∧ r.skipWaitKey = w ∧
  (((∀ q ∈ pre, ¬ q.isInfo) ∧ r.timescale = 0 ∧ r.waitKey = false) ∨
   (∃ before info after, pre = before ++ info :: after ∧ info.isInfo ∧ (∀ q ∈ after, ¬ q.isInfo) ∧
    r.timescale ≠ 0 ∧ r.mediaType = info.media ∧
    (r.waitKey = true ↔ info.media = 0 ∧
      (¬ ∃ b q c, after = b ++ q :: c ∧ q.isKey ∧ s ≤ frames (before ++ info :: b)) ∧
      ¬ (w = true ∧ frames before < s ∧ s ≤ frames pre))))

theorem last_info_unique {b b' : List Packet} {i i' : Packet} {a a' : List Packet} (h : b ++ i :: a = b' ++ i' :: a')
    (hi : i.isInfo) (hi' : i'.isInfo) (ha : ∀ q ∈ a, ¬ q.isInfo) (ha' : ∀ q ∈ a', ¬ q.isInfo) :
    b = b' ∧ i = i' ∧ a = a' := by
  induction b generalizing b' with
  | nil =>
    cases b' with
    | nil =>
      rw [List.nil_append, List.nil_append] at h
      cases h
      exact ⟨rfl, rfl, rfl⟩
    | cons c b' =>
      rw [List.nil_append, List.cons_append] at h
      cases h
      exact absurd hi' (ha i' (List.mem_append_right _ (List.mem_cons_self ..)))
  | cons c b ih =>
    cases b' with
    | nil =>
      rw [List.nil_append, List.cons_append] at h
      cases h
      exact absurd hi (ha' i (List.mem_append_right _ (List.mem_cons_self ..)))
    | cons c' b' =>
      rw [List.cons_append, List.cons_append] at h
      injection h with h1 h2
      obtain ⟨rfl, e2, e3⟩ := ih h2
      exact ⟨by rw [h1], e2, e3⟩

theorem types_ne : tConnect ≠ tFrame ∧ tConnect ≠ tMediaInfo ∧ tMediaInfo ≠ tFrame ∧ tEos ≠ tFrame ∧ tEos ≠ tMediaInfo := by
  decide

/-- A packet that is neither a frame nor media info changes nothing that matters here. -/
theorem knows_other {σ : Type} {f s : Nat} {w : Bool} {pre : List Packet} {r r' : Rx σ} {p : Packet}
    (h : Knows f s w pre r) (hf : ¬ p.isFrame) (hi : ¬ p.isInfo) (e1 : r'.cur = r.cur) (e2 : r'.skipLeft = r.skipLeft)
    (e3 : r'.skipWaitKey = r.skipWaitKey) (e4 : r'.timescale = r.timescale) (e5 : r'.mediaType = r.mediaType)
    (e6 : r'.waitKey = r.waitKey) : Knows f s w (pre ++ [p]) r' := by
  obtain ⟨h1, h2, h3, h4⟩ := h
  have hfr : frames (pre ++ [p]) = frames pre := by rw [frames_append, frames_one, if_neg hf, Nat.add_zero]
  refine ⟨by rw [e1, hfr, h1], by rw [e2, hfr, h2], e3.trans h3, ?_⟩
  rcases h4 with ⟨g1, g2, g3⟩ | ⟨b, i, a, g1, g2, g3, g4, g5, g6⟩
  · refine Or.inl ⟨fun q hq => ?_, e4.trans g2, e6.trans g3⟩
    rcases List.mem_append.mp hq with hq | hq
    · exact g1 q hq
    · rw [List.mem_singleton] at hq; rw [hq]; exact hi
  · refine Or.inr ⟨b, i, a ++ [p], ?_, g2, fun q hq => ?_, by rw [e4]; exact g4, e5.trans g5, ?_⟩
    · rw [g1, List.append_assoc, List.cons_append]
    · rcases List.mem_append.mp hq with hq | hq
      · exact g3 q hq
      · rw [List.mem_singleton] at hq; rw [hq]; exact hi
    · rw [e6, g6, hfr]
      have : (∃ b' q c, a ++ [p] = b' ++ q :: c ∧ q.isKey ∧ s ≤ frames (b ++ i :: b')) ↔
          (∃ b' q c, a = b' ++ q :: c ∧ q.isKey ∧ s ≤ frames (b ++ i :: b')) := by
        constructor
        · rintro ⟨b', q, c, hc, hk, hs⟩
          rcases List.eq_nil_or_concat c with rfl | ⟨c', z, rfl⟩
          · obtain ⟨-, e⟩ := List.append_inj' hc rfl
            cases e
            exact absurd hk.1 hf
          · rw [List.concat_eq_append, ← List.cons_append, ← List.append_assoc] at hc
            obtain ⟨e, -⟩ := List.append_inj' hc rfl
            exact ⟨b', q, c', e, hk, hs⟩
        · rintro ⟨b', q, c, rfl, hk, hs⟩
          exact ⟨b', q, c ++ [p], by rw [List.append_assoc, List.cons_append], hk, hs⟩
      rw [this]

theorem knows_info {σ : Type} {f s : Nat} {w : Bool} {pre : List Packet} {r r' : Rx σ} {p : Packet}
    (h : Knows f s w pre r) (hi : p.isInfo) (e1 : r'.cur = r.cur) (e2 : r'.skipLeft = r.skipLeft)
    (e3 : r'.skipWaitKey = r.skipWaitKey) (e4 : r'.timescale ≠ 0) (e5 : r'.mediaType = p.media)
    (e6 : r'.waitKey = decide (p.media = 0)) : Knows f s w (pre ++ [p]) r' := by
  obtain ⟨h1, h2, h3, h4⟩ := h
  have hf : ¬ p.isFrame := fun h => types_ne.2.2.1 (hi.symm.trans h)
  have hfr : frames (pre ++ [p]) = frames pre := by rw [frames_append, frames_one, if_neg hf, Nat.add_zero]
  refine ⟨by rw [e1, hfr, h1], by rw [e2, hfr, h2], e3.trans h3, ?_⟩
  refine Or.inr ⟨pre, p, [], rfl, hi, (fun _ h => nomatch h), e4, e5, ?_⟩
  rw [e6, decide_eq_true_iff, hfr]
  constructor
  · intro h
    refine ⟨h, ?_, by omega⟩
    rintro ⟨b, q, c, hc, -⟩
    cases b <;> cases hc
  · exact fun h => h.1

/-- A frame. -/
theorem knows_frame {σ : Type} {f s : Nat} {w : Bool} {pre : List Packet} {r r' : Rx σ} {p : Packet}
    (h : Knows f s w pre r) (hf : p.isFrame) (e1 : r'.cur = (r.cur + 1) % 2 ^ 64) (e2 : r'.skipLeft = r.skipLeft - 1)
    (e3 : r'.skipWaitKey = r.skipWaitKey) (e4 : r'.timescale = r.timescale) (e5 : r'.mediaType = r.mediaType)
    (e6 : r'.waitKey = true ↔ (r.waitKey = true ∧ ¬ (r.skipLeft = 1 ∧ w = true) ∧
      (p.isKey → r.skipLeft = 0 → r.timescale = 0 ∨ r.mediaType ≠ 0))) : Knows f s w (pre ++ [p]) r' := by
  obtain ⟨h1, h2, h3, h4⟩ := h
  have hi : ¬ p.isInfo := fun h => types_ne.2.2.1 (h.symm.trans hf)
  have hfr : frames (pre ++ [p]) = frames pre + 1 := by rw [frames_append, frames_one, if_pos hf]
  refine ⟨?_, by rw [e2, hfr, h2]; omega, e3.trans h3, ?_⟩
  · rw [e1, h1, hfr, Nat.mod_add_mod, Nat.add_assoc]
  rcases h4 with ⟨g1, g2, g3⟩ | ⟨b, i, a, g1, g2, g3, g4, g5, g6⟩
  · refine Or.inl ⟨fun q hq => ?_, e4.trans g2, ?_⟩
    · rcases List.mem_append.mp hq with hq | hq
      · exact g1 q hq
      · rw [List.mem_singleton] at hq; rw [hq]; exact hi
    · have : ¬ r'.waitKey = true := by rw [e6, g3]; exact fun h => nomatch h.1
      exact Bool.eq_false_iff.mpr this
  · refine Or.inr ⟨b, i, a ++ [p], ?_, g2, fun q hq => ?_, by rw [e4]; exact g4, e5.trans g5, ?_⟩
    · rw [g1, List.append_assoc, List.cons_append]
    · rcases List.mem_append.mp hq with hq | hq
      · exact g3 q hq
      · rw [List.mem_singleton] at hq; rw [hq]; exact hi
    · rw [e6, g6, hfr, g5, h2]
      have : (∃ b' q c, a ++ [p] = b' ++ q :: c ∧ q.isKey ∧ s ≤ frames (b ++ i :: b')) ↔
          (∃ b' q c, a = b' ++ q :: c ∧ q.isKey ∧ s ≤ frames (b ++ i :: b')) ∨ (p.isKey ∧ s ≤ frames pre) := by
        constructor
        · rintro ⟨b', q, c, hc, hk, hs⟩
          rcases List.eq_nil_or_concat c with rfl | ⟨c', z, rfl⟩
          · obtain ⟨e', e⟩ := List.append_inj' hc rfl
            cases e
            subst e'
            exact Or.inr ⟨hk, by rw [g1]; exact hs⟩
          · rw [List.concat_eq_append, ← List.cons_append, ← List.append_assoc] at hc
            obtain ⟨e, -⟩ := List.append_inj' hc rfl
            exact Or.inl ⟨b', q, c', e, hk, hs⟩
        · rintro (⟨b', q, c, rfl, hk, hs⟩ | ⟨hk, hs⟩)
          · exact ⟨b', q, c ++ [p], by rw [List.append_assoc, List.cons_append], hk, hs⟩
          · exact ⟨a, p, [], rfl, hk, by rw [← g1]; exact hs⟩
      rw [this]
      have hb : frames b ≤ frames pre := by rw [g1, frames_append]; exact Nat.le_add_right ..
      clear e6 g6 this h1 h2 hfr e1 e2
      generalize (∃ b' q c, a = b' ++ q :: c ∧ q.isKey ∧ s ≤ frames (b ++ i :: b')) = K
      generalize frames pre = n at *
      generalize frames b = m at *
      constructor
      · rintro ⟨⟨k1, k2, k3⟩, k4, k5⟩
        refine ⟨k1, ?_, ?_⟩
        · rintro (k | ⟨k, hs⟩)
          · exact k2 k
          · rcases k5 k (by omega) with k6 | k6
            · exact g4 k6
            · exact k6 k1
        · rintro ⟨hw, j1, j2⟩
          by_cases hs : s ≤ n
          · exact k3 ⟨hw, j1, hs⟩
          · exact k4 ⟨by omega, hw⟩
      · rintro ⟨k1, k2, k3⟩
        refine ⟨⟨k1, fun k => k2 (Or.inl k), fun ⟨hw, j1, j2⟩ => k3 ⟨hw, j1, by omega⟩⟩, ?_, ?_⟩
        · rintro ⟨j1, hw⟩
          exact k3 ⟨hw, by omega, by omega⟩
        · intro hk hs
          exact absurd (Or.inr ⟨hk, by omega⟩) k2

theorem takes_iff {σ : Type} {f s : Nat} {w : Bool} {pre : List Packet} {r : Rx σ} {p : Packet}
    (h : Knows f s w pre r) (hf : p.isFrame) :
    r.takes (field (p.body.take 24) 16 4) (field (p.body.take 24) 20 4) (dsize p.raw) ↔ Delivered s w pre p := by
  obtain ⟨h1, h2, h3, h4⟩ := h
  unfold Rx.takes Delivered
  rw [h2]
  constructor
  · rintro ⟨t1, t2, t3, t4, t5⟩
    rcases h4 with ⟨g1, g2, g3⟩ | ⟨b, i, a, g1, g2, g3, g4, g5, g6⟩
    · exact absurd g2 t2
    · refine ⟨hf, by clear g6; omega, t3, b, i, a, g1, g2, g3, ?_, ?_⟩
      · rw [← g5]; exact t4
      · intro hm
        by_cases hk : r.waitKey = true
        · exact Or.inl ⟨hf, t3, t5 hk⟩
        · by_cases k1 : ∃ b' q c, a = b' ++ q :: c ∧ q.isKey ∧ s ≤ frames (b ++ i :: b')
          · exact Or.inr (Or.inl k1)
          · by_cases k2 : w = true ∧ frames b < s
            · exact Or.inr (Or.inr k2)
            · exact absurd (g6.mpr ⟨hm, k1, fun ⟨j1, j2, _⟩ => k2 ⟨j1, j2⟩⟩) hk
  · rintro ⟨-, t1, t3, b', i', a', t4, t5, t6, t7, t8⟩
    rcases h4 with ⟨g1, g2, g3⟩ | ⟨b, i, a, g1, g2, g3, g4, g5, g6⟩
    · exact absurd t5 (g1 i' (by rw [t4]; exact List.mem_append_right _ (List.mem_cons_self ..)))
    · obtain ⟨rfl, rfl, rfl⟩ := last_info_unique (g1.symm.trans t4) g2 t5 g3 t6
      refine ⟨by clear g6 t8; omega, g4, t3, by rw [g5]; exact t7, fun hk => ?_⟩
      obtain ⟨j1, j2, j3⟩ := g6.mp hk
      rcases t8 j1 with k | k | ⟨k1, k2⟩
      · exact k.2.2
      · exact absurd k j2
      · exact absurd ⟨k1, k2, t1⟩ j3

theorem say_fields {σ : Type} (a : App σ) (r : Rx σ) (e : Event) :
    (r.say a e).cur = r.cur ∧ (r.say a e).skipLeft = r.skipLeft ∧ (r.say a e).skipWaitKey = r.skipWaitKey ∧
    (r.say a e).timescale = r.timescale ∧ (r.say a e).mediaType = r.mediaType ∧ (r.say a e).waitKey = r.waitKey ∧
    (r.say a e).log = r.log ++ [e] := ⟨rfl, rfl, rfl, rfl, rfl, rfl, rfl⟩

open Classical in
/-- One packet: the frame event it gives, if the connection is open behind it; otherwise that or none. -/
theorem packet_frames {σ : Type} (a : App σ) {f s : Nat} {w : Bool} {pre : List Packet} {r r' : Rx σ} {p : Packet}
    {st : Option Status} (h : Knows f s w pre r) (hp : r.packet a p = (r', st)) :
    (st = none → Knows f s w (pre ++ [p]) r') ∧
    (r'.log.filter Event.isFrame = r.log.filter Event.isFrame ++
        (if Delivered s w pre p then [p.event ((f + frames pre) % 2 ^ 64)] else []) ∨
      (st ≠ none ∧ r'.log.filter Event.isFrame = r.log.filter Event.isFrame)) := by
  unfold Rx.packet at hp
  dsimp only at hp
  have hnd : ¬ p.isFrame → (if Delivered s w pre p then [p.event ((f + frames pre) % 2 ^ 64)] else []) = [] := by
    intro hn
    rw [if_neg (fun h : Delivered s w pre p => hn h.1)]
  by_cases c1 : ptype p.raw = tConnect
  · rw [if_pos c1] at hp
    injection hp with e1 e2
    have hf : ¬ p.isFrame := fun h => types_ne.1 (c1.symm.trans h)
    have hi : ¬ p.isInfo := fun h => types_ne.2.1 (c1.symm.trans h)
    rw [hnd hf]
    subst e1
    refine ⟨fun _ => knows_other h hf hi rfl rfl rfl rfl rfl rfl, Or.inl ?_⟩
    rw [(say_fields a r _).2.2.2.2.2.2, List.filter_append]
    rfl
  rw [if_neg c1] at hp
  by_cases c2 : ptype p.raw = tMediaInfo
  · rw [if_pos c2] at hp
    have hf : ¬ p.isFrame := fun h => types_ne.2.2.1 (c2.symm.trans h)
    rw [hnd hf]
    by_cases c3 : hsize p.raw < 48 ∨ field (p.body.take 32) 8 4 = 0
    · rw [if_pos c3] at hp
      injection hp with e1 e2
      subst e1 e2
      exact ⟨(fun h => nomatch h), Or.inr ⟨(fun h => nomatch h), rfl⟩⟩
    rw [if_neg c3] at hp
    split at hp
    · injection hp with e1 e2
      subst e1
      refine ⟨fun _ => knows_info h c2 rfl rfl rfl (fun h => c3 (Or.inr h)) rfl rfl, Or.inl ?_⟩
      dsimp only
      rw [(say_fields a r _).2.2.2.2.2.2, List.filter_append]
      rfl
    · injection hp with e1 e2
      subst e1 e2
      refine ⟨(fun h => nomatch h), Or.inl ?_⟩
      rw [(say_fields a r _).2.2.2.2.2.2, List.filter_append]
      rfl
  rw [if_neg c2] at hp
  by_cases c3 : ptype p.raw = tFrame
  · rw [if_pos c3] at hp
    by_cases c4 : hsize p.raw < 40
    · rw [if_pos c4] at hp
      injection hp with e1 e2
      subst e1 e2
      exact ⟨(fun h => nomatch h), Or.inr ⟨(fun h => nomatch h), rfl⟩⟩
    rw [if_neg c4] at hp
    have ht := takes_iff h c3
    by_cases c5 : r.takes (field (p.body.take 24) 16 4) (field (p.body.take 24) 20 4) (dsize p.raw)
    · rw [if_pos c5] at hp
      rw [if_pos (ht.mp c5)]
      have hlog : (r.say a (p.event r.cur)).log.filter Event.isFrame =
          r.log.filter Event.isFrame ++ [p.event ((f + frames pre) % 2 ^ 64)] := by
        rw [(say_fields a r _).2.2.2.2.2.2, List.filter_append, h.1]
        rfl
      split at hp
      · injection hp with e1 e2
        subst e1
        refine ⟨fun _ => knows_frame h c3 rfl ?_ rfl rfl rfl ?_, Or.inl hlog⟩
        · show r.skipLeft = r.skipLeft - 1
          rw [c5.1]
        · show false = true ↔ _
          constructor
          · exact fun h => nomatch h
          · rintro ⟨k1, -, k3⟩
            have hk : p.isKey := ⟨c3, c5.2.2.1, c5.2.2.2.2 k1⟩
            rcases k3 hk c5.1 with k | k
            · exact absurd k c5.2.1
            · obtain ⟨-, -, -, h4⟩ := h
              rcases h4 with ⟨g1, g2, g3⟩ | ⟨b, i, af, g1, g2, g3, g4, g5, g6⟩
              · rw [g3] at k1; exact nomatch k1
              · exact absurd (g5.trans (g6.mp k1).1) k
      · injection hp with e1 e2
        subst e1 e2
        exact ⟨(fun h => nomatch h), Or.inl hlog⟩
    · rw [if_neg c5] at hp
      rw [if_neg (fun h' => c5 (ht.mpr h')), List.append_nil]
      injection hp with e1 e2
      subst e1
      refine ⟨fun _ => knows_frame h c3 rfl rfl rfl rfl rfl ?_, Or.inl rfl⟩
      have hw : r.skipWaitKey = w := h.2.2.1
      show (if r.skipLeft = 1 ∧ r.skipWaitKey = true then false else r.waitKey) = true ↔ _
      rw [hw]
      constructor
      · intro k
        split at k
        · exact nomatch k
        · rename_i k2
          refine ⟨k, k2, fun hk hs => ?_⟩
          -- a key frame that is not taken: there is no media info, or it is not video
          by_cases t : r.timescale = 0
          · exact Or.inl t
          · refine Or.inr fun hm => c5 ⟨hs, t, hk.2.1, ?_, fun _ => hk.2.2⟩
            rw [hm]
            exact fun h => nomatch h
      · rintro ⟨k1, k2, -⟩
        rw [if_neg k2]
        exact k1
  rw [if_neg c3] at hp
  rw [hnd c3]
  by_cases c4 : ptype p.raw = tEos
  · rw [if_pos c4] at hp
    injection hp with e1 e2
    subst e1 e2
    refine ⟨(fun h => nomatch h), Or.inl ?_⟩
    rw [(say_fields a r _).2.2.2.2.2.2, List.filter_append]
    rfl
  · rw [if_neg c4] at hp
    injection hp with e1 e2
    subst e1
    exact ⟨fun _ => knows_other h c3 c2 rfl rfl rfl rfl rfl rfl, Or.inl (by rw [List.append_nil])⟩

theorem packets_frames {σ : Type} (a : App σ) {f s : Nat} {w : Bool} : ∀ (ps pre : List Packet) (r r' : Rx σ)
    (st : Option Status), Knows f s w pre r → r.packets a ps = (r', st) →
    ∃ n, n ≤ ps.length ∧ (st = none → n = ps.length) ∧
      r'.log.filter Event.isFrame = r.log.filter Event.isFrame ++ delivered f s w pre (ps.take n)
  | [], pre, r, r', st, h, e => by
    cases e
    exact ⟨0, Nat.le_refl _, fun _ => rfl, by rw [List.take_nil, delivered, List.append_nil]⟩
  | p :: ps, pre, r, r', st, h, e => by
    unfold Rx.packets at e
    match hp : r.packet a p with
    | (r1, some st1) =>
      rw [hp] at e
      cases e
      rcases (packet_frames a h hp).2 with hl | ⟨-, hl⟩
      · refine ⟨1, by simp, (fun h => nomatch h), ?_⟩
        rw [hl, List.take_succ_cons, List.take_zero, delivered, delivered, List.append_nil]
      · refine ⟨0, Nat.zero_le _, (fun h => nomatch h), ?_⟩
        rw [hl, List.take_zero, delivered, List.append_nil]
    | (r1, none) =>
      rw [hp] at e
      dsimp only at e
      obtain ⟨hk, hl⟩ := packet_frames a h hp
      obtain ⟨n, hn1, hn2, hn3⟩ := packets_frames a ps (pre ++ [p]) r1 r' st (hk rfl) e
      rcases hl with hl | ⟨hne, -⟩
      · refine ⟨n + 1, by rw [List.length_cons]; omega, fun h => by rw [List.length_cons, hn2 h], ?_⟩
        rw [hn3, hl, List.take_succ_cons, delivered, List.append_assoc]
      · exact absurd rfl hne

/-- The start of a connection. -/
theorem knows_start {σ : Type} (h : List UInt8) (s1 : σ) (c : Nat) (w : Bool) (hf : field h 80 8 < 2 ^ 64) :
    Knows (field h 80 8) c w [] (Rx.start h s1 c w) := by
  refine ⟨?_, rfl, rfl, Or.inl ⟨(fun _ h => nomatch h), rfl, rfl⟩⟩
  show field h 80 8 = _
  rw [show frames [] = 0 from rfl, Nat.add_zero, Nat.mod_eq_of_lt hf]

/-- C18: when a connection starts at frame number `f`, and the application asks to skip `c` frames, then,
whatever packets follow and however they arrive, the frames the application gets are those that the
specification `delivered` says for the packets received: the `k`-th frame packet has the number `f + k`, the
first `c` are left out, and the others are left out only for the given reasons. This is for all packets as long
as the connection is open, and up to some packet when it has ended. -/
theorem run_frames {σ : Type} (a : App σ) (s0 s1 : σ) (c : Nat) (w : Bool) (pieces : List (Nat × List UInt8))
    (hp : Pieces 0 pieces) (hs hdr : List UInt8) (ps : List Packet) (rest : List UInt8)
    (hb : pieces.flatMap (·.2) = hdr ++ hs) (hok : ConnectOk hdr) (hlen : hdr.length = 104)
    (hc : a.connected s0 hdr = (s1, some (c, w))) (hl : hsize hdr + dsize hdr ≤ 104 + hs.length)
    (hps : Splits (hs.drop (hsize hdr + dsize hdr - 104)) ps rest) :
    ∃ x st n, run a (create s0) pieces = some (x, st) ∧ n ≤ ps.length ∧ (st = none → n = ps.length) ∧
      x.log.filter Event.isFrame = delivered (field hdr 80 8) c w [] (ps.take n) := by
  obtain ⟨x, st, e, o⟩ := run_outcome a s0 pieces hp
  rw [hb] at o
  have htk : (hdr ++ hs).take 104 = hdr := by rw [← hlen, List.take_left]
  have hln : (hdr ++ hs).length = 104 + hs.length := by rw [List.length_append, hlen]
  have hok1 := hok.2.1
  have hdrop : (hdr ++ hs).drop (hsize hdr + dsize hdr) = hs.drop (hsize hdr + dsize hdr - 104) := by
    rw [List.drop_append, List.drop_eq_nil_of_le (by omega), List.nil_append, hlen]
  generalize hq : firstPacket (hdr ++ hs) = q
  have hqraw : q.raw = hdr.take 16 := by rw [← hq]; unfold firstPacket; rw [htk]
  generalize hstr : (Rx.start hdr s1 c w).stream a (q :: ps) rest = rs
  obtain ⟨r, st1⟩ := rs
  have o' : Outcome a s0 (hdr ++ hs) r.log r.app st1 := by
    refine .packets (s1 := s1) (c := c) (w := w) (ps := ps) (rest := rest) r st1 (by omega) (by rw [htk]; exact hok)
      (by rw [htk]; exact hc) (by rw [htk]; omega) (by rw [htk, hdrop]; exact hps) ?_
    have : (⟨((hdr ++ hs).take 104).take 16,
        ((hdr ++ hs).take (hsize ((hdr ++ hs).take 104) + dsize ((hdr ++ hs).take 104))).drop 104⟩ : Packet) = q := hq
    rw [this, htk, hstr]
  obtain ⟨o1, o2, rfl⟩ := outcome_unique o o'
  have hq1 : ¬ q.isFrame := by
    intro h
    have h1 : ptype q.raw = ptype hdr := by rw [hqraw]; exact field_take _ (by omega)
    exact types_ne.1 (hok.1.symm.trans (h1.symm.trans h))
  have hqd : ∀ ps : List Packet, delivered (field hdr 80 8) c w [] (q :: ps) = delivered (field hdr 80 8) c w [q] ps := by
    intro ps
    rw [delivered, if_neg (fun h => hq1 h.1), List.nil_append, List.nil_append]
  -- the connect packet in front does not matter
  have hpre : ∀ (ps pre : List Packet), delivered (field hdr 80 8) c w (q :: pre) ps =
      delivered (field hdr 80 8) c w pre ps := by
    have hqi : ¬ q.isInfo := by
      intro h
      have h1 : ptype q.raw = ptype hdr := by rw [hqraw]; exact field_take _ (by omega)
      exact types_ne.2.1 (hok.1.symm.trans (h1.symm.trans h))
    have hfr : ∀ pre, frames (q :: pre) = frames pre := fun pre => by
      rw [show q :: pre = [q] ++ pre from rfl, frames_append, frames_one, if_neg hq1, Nat.zero_add]
    have hD : ∀ pre p, Delivered c w (q :: pre) p ↔ Delivered c w pre p := by
      intro pre p
      unfold Delivered
      rw [hfr]
      constructor
      · rintro ⟨t1, t2, t3, b, i, a', t4, t5, t6, t7, t8⟩
        cases b with
        | nil =>
          rw [List.nil_append] at t4
          cases t4
          exact absurd t5 hqi
        | cons z b =>
          rw [List.cons_append] at t4
          injection t4 with t41 t42
          subst t41
          refine ⟨t1, t2, t3, b, i, a', t42, t5, t6, t7, fun hm => ?_⟩
          rcases t8 hm with k | ⟨b', q', c', k1, k2, k3⟩ | k
          · exact Or.inl k
          · rw [List.cons_append, hfr] at k3
            exact Or.inr (Or.inl ⟨b', q', c', k1, k2, k3⟩)
          · rw [hfr] at k
            exact Or.inr (Or.inr k)
      · rintro ⟨t1, t2, t3, b, i, a', t4, t5, t6, t7, t8⟩
        refine ⟨t1, t2, t3, q :: b, i, a', by rw [t4, List.cons_append], t5, t6, t7, fun hm => ?_⟩
        rcases t8 hm with k | ⟨b', q', c', k1, k2, k3⟩ | k
        · exact Or.inl k
        · exact Or.inr (Or.inl ⟨b', q', c', k1, k2, by rw [List.cons_append, hfr]; exact k3⟩)
        · exact Or.inr (Or.inr (by rw [hfr]; exact k))
    intro ps
    induction ps with
    | nil => intro pre; rw [delivered, delivered]
    | cons p ps ih =>
      intro pre
      rw [delivered, delivered, List.cons_append, ih (pre ++ [p]), hfr]
      congr 1
      by_cases hd : Delivered c w pre p
      · rw [if_pos hd, if_pos ((hD pre p).mpr hd)]
      · rw [if_neg hd, if_neg (fun h => hd ((hD pre p).mp h))]
  obtain ⟨r2, st2, hpk⟩ : ∃ r2 st2, (Rx.start hdr s1 c w).packets a (q :: ps) = (r2, st2) := ⟨_, _, rfl⟩
  have hf64 := hok.2.2.2.2
  obtain ⟨n, hn1, hn2, hn3⟩ := packets_frames a (q :: ps) [] _ r2 st2 (knows_start hdr s1 c w (by omega)) hpk
  have hlog : r.log = r2.log ∧ (st = none → st2 = none) := by
    unfold Rx.stream at hstr
    rw [hpk] at hstr
    cases st2 with
    | some z => cases hstr; exact ⟨rfl, fun h => h⟩
    | none =>
      dsimp only at hstr
      injection hstr with e1 e2
      exact ⟨by rw [e1], fun _ => rfl⟩
  have h0 : ((Rx.start hdr s1 c w).log).filter Event.isFrame = [] := rfl
  rw [h0, List.nil_append] at hn3
  rw [List.length_cons] at hn1
  refine ⟨x, st, n - 1, e, by omega, ?_, ?_⟩
  · intro h
    have := hn2 (hlog.2 h)
    rw [List.length_cons] at this
    omega
  · rw [o1, hlog.1, hn3]
    cases n with
    | zero => rfl
    | succ n => rw [List.take_succ_cons, hqd, hpre]; rfl

end Verif.KmpIn
