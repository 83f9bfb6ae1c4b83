import Verif.SyncerProps

/-!
# The syncer: tracks that connect again
-/

namespace Verif.Syncer

open Verif.SyncerSpec

def val (x : Log) : Option (Nat × Int) := if x.seq = 0 then none else some (x.id, x.corr)

/-- The log, the last entry first. -/
def ring (t : Trk) : List (Option (Nat × Int)) :=
  match t.log, t.idx with
  | [a, b, c], 0 => [val c, val b, val a]
  | [a, b, c], 1 => [val a, val c, val b]
  | [a, b, c], 2 => [val b, val a, val c]
  | _, _ => []

def pad (S : List (Nat × Int)) : List (Option (Nat × Int)) := (S.map some ++ [none, none, none]).take 3

theorem pad_length (S : List (Nat × Int)) : (pad S).length = 3 := by simp [pad]

theorem ring_shape {t : Trk} (h : (ring t).length = 3) : ∃ a b c, t.log = [a, b, c] ∧ (t.idx = 0 ∨ t.idx = 1 ∨ t.idx = 2) := by
  unfold ring at h
  split at h
  · exact ⟨_, _, _, by assumption, Or.inl (by assumption)⟩
  · exact ⟨_, _, _, by assumption, Or.inr (Or.inl (by assumption))⟩
  · exact ⟨_, _, _, by assumption, Or.inr (Or.inr (by assumption))⟩
  · simp at h

theorem ring_mem {t : Trk} (h : (ring t).length = 3) (o : Option (Nat × Int)) : o ∈ ring t ↔ ∃ x ∈ t.log, val x = o := by
  obtain ⟨a, b, c, h1, h2⟩ := ring_shape h
  unfold ring
  rcases h2 with h2 | h2 | h2 <;> rw [h1, h2] <;> simp [eq_comm] <;> grind

theorem ring_push {ch : Chan} {t : Trk} {id : Nat} (h : (ring t).length = 3) : ring (addLog ch t id).2 = some (id, t.corr) :: (ring t).take 2 := by
  obtain ⟨a, b, c, h1, h2⟩ := ring_shape h
  unfold ring addLog
  rcases h2 with h2 | h2 | h2 <;> rw [h1, h2] <;> simp [val]

theorem pad_push (s : Nat × Int) (S : List (Nat × Int)) : pad (s :: S) = some s :: (pad S).take 2 := by
  unfold pad
  rw [List.take_take]
  simp

theorem pad_mem {S : List (Nat × Int)} {s : Nat × Int} : some s ∈ pad S ↔ s ∈ S.take 3 := by
  unfold pad
  rw [List.take_append, List.mem_append, ← List.map_take, List.mem_map]
  constructor
  · rintro (⟨x, hx, he⟩ | h)
    · cases he; exact hx
    · have := List.mem_of_mem_take h
      simp at this
  · intro h
    exact Or.inl ⟨s, h, rfl⟩

/-! ## The search -/

theorem getLog_spec {next : Nat} {l : List Log} : ∀ {best : Option Log}, (∀ b, best = some b → b.seq ≠ 0 ∧ b.id < next) →
    (∀ x, getLog next l best = some x → (x ∈ l ∨ best = some x) ∧ x.seq ≠ 0 ∧ x.id < next ∧ (∀ b, best = some b → b.id ≤ x.id) ∧ ∀ y ∈ l, y.seq ≠ 0 → y.id < next → y.id ≤ x.id) ∧
      (getLog next l best = none → best = none ∧ ∀ y ∈ l, y.seq ≠ 0 → ¬ y.id < next) := by
  induction l with
  | nil =>
    intro best hb
    refine ⟨fun x hx => ?_, fun h => ⟨h, fun y hy => by cases hy⟩⟩
    have hx : best = some x := hx
    subst hx
    exact ⟨Or.inr rfl, (hb x rfl).1, (hb x rfl).2, fun b h => by cases h; exact Nat.le_refl _, fun y hy => by cases hy⟩
  | cons z l ih =>
    intro best hb
    unfold getLog
    by_cases h1 : z.seq = 0
    · rw [if_pos h1]
      obtain ⟨i1, i2⟩ := ih hb
      refine ⟨fun x hx => ?_, fun h => ?_⟩
      · obtain ⟨j1, j2, j3, j4, j5⟩ := i1 x hx
        refine ⟨j1.imp (List.mem_cons_of_mem _) id, j2, j3, j4, fun y hy hs hn => ?_⟩
        rcases List.mem_cons.1 hy with rfl | hy
        · exact absurd h1 hs
        · exact j5 y hy hs hn
      · obtain ⟨j1, j2⟩ := i2 h
        refine ⟨j1, fun y hy hs => ?_⟩
        rcases List.mem_cons.1 hy with rfl | hy
        · exact absurd h1 hs
        · exact j2 y hy hs
    · rw [if_neg h1]
      by_cases h2 : next ≤ z.id
      · rw [if_pos h2]
        obtain ⟨i1, i2⟩ := ih hb
        refine ⟨fun x hx => ?_, fun h => ?_⟩
        · obtain ⟨j1, j2, j3, j4, j5⟩ := i1 x hx
          refine ⟨j1.imp (List.mem_cons_of_mem _) id, j2, j3, j4, fun y hy hs hn => ?_⟩
          rcases List.mem_cons.1 hy with rfl | hy
          · omega
          · exact j5 y hy hs hn
        · obtain ⟨j1, j2⟩ := i2 h
          refine ⟨j1, fun y hy hs => ?_⟩
          rcases List.mem_cons.1 hy with rfl | hy
          · omega
          · exact j2 y hy hs
      · rw [if_neg h2]
        cases best with
        | none =>
          simp only []
          obtain ⟨i1, i2⟩ := ih (best := some z) (fun b hb => by cases hb; exact ⟨h1, by omega⟩)
          refine ⟨fun x hx => ?_, fun h => ?_⟩
          · obtain ⟨j1, j2, j3, j4, j5⟩ := i1 x hx
            refine ⟨Or.inl ?_, j2, j3, fun b hb => (by cases hb), fun y hy hs hn => ?_⟩
            · rcases j1 with j1 | j1
              · exact List.mem_cons_of_mem _ j1
              · cases j1; exact List.mem_cons_self
            · rcases List.mem_cons.1 hy with rfl | hy
              · exact j4 y rfl
              · exact j5 y hy hs hn
          · have := (i2 h).1
            cases this
        | some b =>
          simp only []
          by_cases h3 : b.id < z.id
          · rw [if_pos h3]
            obtain ⟨i1, i2⟩ := ih (best := some z) (fun b hb => by cases hb; exact ⟨h1, by omega⟩)
            refine ⟨fun x hx => ?_, fun h => ?_⟩
            · obtain ⟨j1, j2, j3, j4, j5⟩ := i1 x hx
              have j6 := j4 z rfl
              refine ⟨Or.inl ?_, j2, j3, fun b' hb' => (by cases hb'; omega), fun y hy hs hn => ?_⟩
              · rcases j1 with j1 | j1
                · exact List.mem_cons_of_mem _ j1
                · cases j1; exact List.mem_cons_self
              · rcases List.mem_cons.1 hy with rfl | hy
                · exact j6
                · exact j5 y hy hs hn
            · have := (i2 h).1
              cases this
          · rw [if_neg h3]
            obtain ⟨i1, i2⟩ := ih (best := some b) hb
            refine ⟨fun x hx => ?_, fun h => ?_⟩
            · obtain ⟨j1, j2, j3, j4, j5⟩ := i1 x hx
              have j6 := j4 b rfl
              refine ⟨j1.imp (List.mem_cons_of_mem _) id, j2, j3, j4, fun y hy hs hn => ?_⟩
              rcases List.mem_cons.1 hy with rfl | hy
              · omega
              · exact j5 y hy hs hn
            · have := (i2 h).1
              cases this

/-! ## Syncs and frames -/

def Falls (S : List (Nat × Int)) : Prop := S.Pairwise fun a b => b.1 < a.1

theorem find_falls {next : Nat} {L : List (Nat × Int)} (hL : Falls L) {b : Nat × Int} (hb : b ∈ L) (hn : b.1 < next) (hm : ∀ x ∈ L, x.1 < next → x.1 ≤ b.1) :
    L.find? (fun s => decide (s.1 < next)) = some b := by
  induction L with
  | nil => cases hb
  | cons h L ih =>
    obtain ⟨p1, p2⟩ := List.pairwise_cons.1 hL
    by_cases hh : h.1 < next
    · rw [List.find?_cons_of_pos (by simpa using hh)]
      rcases List.mem_cons.1 hb with rfl | hb
      · rfl
      · have := hm h List.mem_cons_self hh
        have := p1 b hb
        omega
    · rw [List.find?_cons_of_neg (by simpa using hh)]
      rcases List.mem_cons.1 hb with rfl | hb
      · exact absurd hn hh
      · exact ih p2 hb (fun x hx => hm x (List.mem_cons_of_mem _ hx))

/-- Syncs of frames: those that were shifted anew; the others have the shift of the sync before, if there is one. -/
def Cov : List (Frame × Frame) → List (Nat × Int) → Prop
  | [], S => S = []
  | g :: acc, S => (∃ S', S = (g.1.id, g.2.dts - g.1.dts) :: S' ∧ Cov acc S') ∨ (Cov acc S ∧ ∀ s, S.head? = some s → g.2.dts - g.1.dts = s.2)

def FallsF (acc : List (Frame × Frame)) : Prop := acc.Pairwise fun a b => b.1.id < a.1.id

theorem cov_mem {acc : List (Frame × Frame)} : ∀ {S : List (Nat × Int)}, Cov acc S → ∀ s ∈ S, ∃ x ∈ acc, x.1.id = s.1 := by
  induction acc with
  | nil =>
    intro S h s hs
    have h : S = [] := h
    subst h
    cases hs
  | cons g acc ih =>
    intro S h s hs
    rcases h with ⟨S', rfl, h⟩ | ⟨h, -⟩
    · rcases List.mem_cons.1 hs with rfl | hs
      · exact ⟨g, List.mem_cons_self, rfl⟩
      · obtain ⟨x, x1, x2⟩ := ih h s hs
        exact ⟨x, List.mem_cons_of_mem _ x1, x2⟩
    · obtain ⟨x, x1, x2⟩ := ih h s hs
      exact ⟨x, List.mem_cons_of_mem _ x1, x2⟩

theorem cov_falls {acc : List (Frame × Frame)} : ∀ {S : List (Nat × Int)}, FallsF acc → Cov acc S → Falls S := by
  induction acc with
  | nil =>
    intro S _ h
    have h : S = [] := h
    subst h
    exact List.Pairwise.nil
  | cons g acc ih =>
    intro S hf h
    obtain ⟨p1, p2⟩ := List.pairwise_cons.1 hf
    rcases h with ⟨S', rfl, h⟩ | ⟨h, -⟩
    · refine List.pairwise_cons.2 ⟨fun s hs => ?_, ih p2 h⟩
      obtain ⟨x, x1, x2⟩ := cov_mem h s hs
      rw [← x2]
      exact p1 x x1
    · exact ih p2 h

theorem cov_find {next : Nat} {acc : List (Frame × Frame)} : ∀ {S : List (Nat × Int)} {s : Nat × Int}, FallsF acc → Cov acc S → S.find? (fun s => decide (s.1 < next)) = some s →
    ∃ g, (acc.filter fun x => decide (x.1.id < next)).head? = some g ∧ s.2 = g.2.dts - g.1.dts := by
  induction acc with
  | nil =>
    intro S s _ h hs
    have h : S = [] := h
    subst h
    cases hs
  | cons g acc ih =>
    intro S s hf h hs
    obtain ⟨p1, p2⟩ := List.pairwise_cons.1 hf
    by_cases hg : g.1.id < next
    · rw [List.filter_cons_of_pos (by simpa using hg)]
      refine ⟨g, rfl, ?_⟩
      rcases h with ⟨S', rfl, h⟩ | ⟨h, hh⟩
      · rw [List.find?_cons_of_pos (by simpa using hg)] at hs
        cases hs
        rfl
      · cases S with
        | nil => cases hs
        | cons s0 S =>
          obtain ⟨x, x1, x2⟩ := cov_mem h s0 List.mem_cons_self
          have := p1 x x1
          rw [List.find?_cons_of_pos (by simp; omega)] at hs
          cases hs
          exact (hh s rfl).symm
    · rw [List.filter_cons_of_neg (by simpa using hg)]
      rcases h with ⟨S', rfl, h⟩ | ⟨h, hh⟩
      · rw [List.find?_cons_of_neg (by simpa using hg)] at hs
        exact ih p2 h hs
      · exact ih p2 h hs

/-- A track that lost nothing. -/
def Inv (t : Trk) (acc : List (Frame × Frame)) : Prop :=
  ∃ S, ring t = pad S ∧ Cov acc S ∧ FallsF acc ∧ ∀ s, S.head? = some s → t.corr = s.2

/-- A track that has connected again: it starts anew, or goes on with the shift of the last frame that counts. -/
def Pend (t : Trk) (acc : List (Frame × Frame)) (b : Bool) : Prop := b = true → t.lastPts = inv ∨ ∃ g, acc.head? = some g ∧ t.corr = g.2.dts - g.1.dts

theorem Inv.alike {t u : Trk} {acc : List (Frame × Frame)} (h : Inv t acc) (a : Alike t u) : Inv u acc := by rw [a]; exact h

theorem Pend.alike {t u : Trk} {acc : List (Frame × Frame)} {b : Bool} (h : Pend t acc b) (a : Alike t u) : Pend u acc b := by rw [a]; exact h

theorem getLog_inv {t : Trk} {acc : List (Frame × Frame)} {S : List (Nat × Int)} (h1 : ring t = pad S) (h2 : Cov acc S) (h3 : FallsF acc) (next : Nat) :
    (∀ x, getLog next t.log none = some x → S.find? (fun s => decide (s.1 < next)) = some (x.id, x.corr)) ∧
      (getLog next t.log none = none → ∀ s ∈ S.take 3, ¬ s.1 < next) := by
  have hlen : (ring t).length = 3 := by rw [h1, pad_length]
  have hmem : ∀ s, s ∈ S.take 3 ↔ ∃ x ∈ t.log, val x = some s := by
    intro s
    rw [← pad_mem, ← h1, ring_mem hlen]
  have hfall := cov_falls h3 h2
  obtain ⟨g1, g2⟩ := getLog_spec (next := next) (l := t.log) (best := none) (fun b hb => by cases hb)
  refine ⟨fun x hx => ?_, fun hn s hs => ?_⟩
  · obtain ⟨j1, j2, j3, -, j5⟩ := g1 x hx
    have hxl : x ∈ t.log := by
      rcases j1 with j1 | j1
      · exact j1
      · cases j1
    have hb : (x.id, x.corr) ∈ S.take 3 := (hmem _).2 ⟨x, hxl, by unfold val; rw [if_neg j2]⟩
    have hf : (S.take 3).find? (fun s => decide (s.1 < next)) = some (x.id, x.corr) := by
      refine find_falls (hfall.sublist (List.take_sublist 3 S)) hb j3 (fun s hs hsn => ?_)
      obtain ⟨y, y1, y2⟩ := (hmem s).1 hs
      unfold val at y2
      split at y2
      · cases y2
      · rename_i hy
        cases y2
        exact j5 y y1 hy hsn
    rw [← List.take_append_drop 3 S, List.find?_append, hf]
    rfl
  · obtain ⟨y, y1, y2⟩ := (hmem s).1 hs
    unfold val at y2
    split at y2
    · cases y2
    · rename_i hy
      cases y2
      exact (g2 hn).2 y y1 hy

theorem ring_remove {t : Trk} {next : Nat} (h : ∀ x ∈ t.log, x.seq ≠ 0 → x.id < next) {u : Trk} (hu : u.log = removeLogs next t.log) (hi : u.idx = t.idx) : ring u = ring t := by
  have hv : ∀ x ∈ t.log, val (if next ≤ x.id then { x with seq := 0 } else x) = val x := by
    intro x hx
    by_cases hs : x.seq = 0
    · split <;> simp [val, hs]
    · have := h x hx hs
      rw [if_neg (by omega)]
  unfold ring
  rw [hu, hi]
  unfold removeLogs
  rcases hl : t.log with _ | ⟨a, _ | ⟨b, _ | ⟨c, _ | ⟨d, l⟩⟩⟩⟩
  · rfl
  · rfl
  · rfl
  · rw [hl] at hv
    have ha := hv a (by simp)
    have hb := hv b (by simp)
    have hc := hv c (by simp)
    simp only [List.map_cons, List.map_nil]
    rcases t.idx with _ | _ | _ | n
    · simp only [ha, hb, hc]
    · simp only [ha, hb, hc]
    · simp only [ha, hb, hc]
    · rfl
  · rfl

/-- Connecting again. -/
theorem reconnect_inv {t u : Trk} {acc : List (Frame × Frame)} {next : Nat} {p d : Int} (h : reconnect t next p d = .ok u) (hi : Inv t acc) :
    Pend u (acc.filter fun x => decide (x.1.id < next)) true ∧ ((∀ x ∈ acc, x.1.id < next) → Inv u acc) := by
  obtain ⟨S, h1, h2, h3, h4⟩ := hi
  obtain ⟨g1, g2⟩ := getLog_inv h1 h2 h3 next
  unfold reconnect at h
  split at h
  · rename_i hn
    cases h
    exact ⟨fun _ => Or.inl rfl, fun _ => ⟨S, h1, h2, h3, h4⟩⟩
  · rename_i x hx
    obtain ⟨q, -, h⟩ := bind_ok_iff h
    cases h
    have hf := g1 x hx
    refine ⟨fun _ => Or.inr ?_, fun hall => ?_⟩
    · obtain ⟨g, e1, e2⟩ := cov_find h3 h2 hf
      exact ⟨g, e1, e2⟩
    · have hS : ∀ s ∈ S, s.1 < next := by
        intro s hs
        obtain ⟨y, y1, y2⟩ := cov_mem h2 s hs
        rw [← y2]
        exact hall y y1
      refine ⟨S, ?_, h2, h3, fun s hs => ?_⟩
      · rw [← h1]
        refine ring_remove (next := next) (fun y hy hs => ?_) rfl rfl
        have hlen : (ring t).length = 3 := by rw [h1, pad_length]
        have : (y.id, y.corr) ∈ S.take 3 := by
          rw [← pad_mem, ← h1, ring_mem hlen]
          exact ⟨y, hy, by unfold val; rw [if_neg hs]⟩
        exact hS _ (List.mem_of_mem_take this)
      · cases S with
        | nil => cases hs
        | cons s0 S =>
          cases hs
          rw [List.find?_cons_of_pos (by simpa using hS _ List.mem_cons_self)] at hf
          cases hf
          rfl

/-! ## Frames -/

theorem sync_ring {c : Conf} {ch ch' : Chan} {i : Nat} {t t' : Trk} {p created : Int} {id n : Nat} {min : Int} (h : syncTrack c ch i t p created id n min = .ok (ch', t'))
    (hr : (ring t).length = 3) : ring t' = some (id, t'.corr) :: (ring t).take 2 := by
  have key : ∀ (ch : Chan) (q : Prop) [Decidable q] (k : Int), ring (addLog ch { (if q then { t with force := 0 } else t) with corr := k, force := 0 } id).2 = some (id, k) :: (ring t).take 2 := by
    intro ch q _ k
    have : ring { (if q then { t with force := 0 } else t) with corr := k, force := 0 } = ring t := by split <;> rfl
    rw [ring_push (by rw [this]; exact hr), this]
  unfold syncTrack at h
  obtain ⟨tc0, -, h⟩ := bind_ok_iff h
  simp only [] at h
  obtain ⟨d, -, h⟩ := bind_ok_iff h
  split at h
  · cases h
  obtain ⟨e, -, h⟩ := bind_ok_iff h
  obtain ⟨a, -, h⟩ := bind_ok_iff h
  split at h
  · have h' := (Res.ok.inj h)
    have e2 : t' = _ := (congrArg Prod.snd h').symm
    rw [e2]
    exact key _ _ _
  · have h' := (Res.ok.inj h)
    have e2 : t' = _ := (congrArg Prod.snd h').symm
    rw [e2]
    exact key _ _ _

/-- A frame is shifted anew, or as the frame before. -/
theorem frame_ring {c : Conf} {ch ch' : Chan} {i : Nat} {t : Trk} {f f' : Frame} (ht : ch.tracks[i]? = some t) (hr : (ring t).length = 3) (h : addFrame c ch i t f = .ok (ch', f')) :
    ∃ u, ch'.tracks[i]? = some u ∧ u.corr = f'.dts - f.dts ∧ (ring u = some (f.id, u.corr) :: (ring t).take 2 ∨ ring u = ring t ∧ u.corr = t.corr) ∧
      (starts t.video f → f'.flags.testBit 4 = false → u.corr = t.corr) := by
  unfold addFrame at h
  simp only [] at h
  rw [← show ready t = if t.force > 1 then { t with force := t.force - 1 } else t from rfl] at h
  have hv : (ready t).video = t.video := by rw [ready_alike t]
  have hg : ring (ready t) = ring t := by rw [ready_alike t]; rfl
  have hcc : (ready t).corr = t.corr := by rw [ready_alike t]
  obtain ⟨r, hre⟩ : ∃ r, r = ready t := ⟨_, rfl⟩
  rw [← hre] at h hv hg hcc
  rw [← hv, ← hg, ← hcc]
  rw [← hg] at hr
  clear hre
  obtain ⟨p, hp, h⟩ := bind_ok_iff h
  obtain ⟨a, ha, h⟩ := bind_ok_iff h
  obtain ⟨⟨ch1, t1, f1⟩, hx, h⟩ := bind_ok_iff h
  obtain ⟨p1, p2, p3⟩ := perform_ok hx
  obtain ⟨d, hd, h⟩ := bind_ok_iff h
  obtain ⟨hd1, -, -⟩ := chk_ok hd
  simp only [Res.ok.injEq, Prod.mk.injEq] at h
  obtain ⟨rfl, rfl⟩ := h
  have hi : i < ch1.tracks.length := by
    rw [p2.1]
    exact (List.getElem?_eq_some_iff.1 ht).1
  simp only [] at hd1
  refine ⟨{ t1 with lastPts := p, lastOut := d }, List.getElem?_set_self hi, ?_⟩
  cases a with
  | none =>
    simp only [perform, Res.ok.injEq, Prod.mk.injEq] at hx
    obtain ⟨rfl, rfl, rfl⟩ := hx
    exact ⟨by show r.corr = d - f.dts; omega, Or.inr ⟨rfl, rfl⟩, fun _ _ => rfl⟩
  | jump min =>
    obtain ⟨x, hy, he⟩ := map_ok_iff hx
    simp only [Prod.mk.injEq] at he
    obtain ⟨rfl, rfl, rfl⟩ := he
    refine ⟨by show x.2.corr = d - f1.dts; omega, Or.inl (sync_ring (ch' := x.1) (t' := x.2) hy hr), fun hst _ => ?_⟩
    exfalso
    rw [if_neg (by rw [inter_iff]; exact fun hh => hh hst)] at ha
    unfold keyAct at ha
    split at ha
    · cases ha
    split at ha
    · cases ha
    obtain ⟨_, _, ha⟩ := bind_ok_iff ha
    obtain ⟨_, _, ha⟩ := bind_ok_iff ha
    split at ha
    · cases ha
    obtain ⟨_, _, ha⟩ := bind_ok_iff ha
    split at ha <;> cases ha
  | sync n =>
    obtain ⟨x, hy, he⟩ := map_ok_iff hx
    simp only [Prod.mk.injEq] at he
    obtain ⟨rfl, rfl, rfl⟩ := he
    have hd1 : d = f.dts + x.2.corr := hd1
    refine ⟨by show x.2.corr = d - f.dts; omega, Or.inl (sync_ring (ch' := x.1) (t' := x.2) hy hr), fun _ hb => ?_⟩
    exfalso
    simp only [] at hb
    rw [bit16] at hb
    cases hb

theorem frame_inv {c : Conf} {ch ch' : Chan} {i : Nat} {t : Trk} {f f' : Frame} {acc : List (Frame × Frame)} (ht : ch.tracks[i]? = some t) (hi : Inv t acc)
    (ho : ∀ x ∈ acc, x.1.id < f.id) (h : addFrame c ch i t f = .ok (ch', f')) : ∃ u, ch'.tracks[i]? = some u ∧ Inv u ((f, f') :: acc) := by
  obtain ⟨S, h1, h2, h3, h4⟩ := hi
  obtain ⟨u, u1, u2, u3, -⟩ := frame_ring ht (by rw [h1, pad_length]) h
  have hF : FallsF ((f, f') :: acc) := List.pairwise_cons.2 ⟨ho, h3⟩
  refine ⟨u, u1, ?_⟩
  rcases u3 with u3 | ⟨u3, u4⟩
  · refine ⟨(f.id, f'.dts - f.dts) :: S, ?_, Or.inl ⟨S, rfl, h2⟩, hF, fun s hs => ?_⟩
    · rw [u3, h1, pad_push, u2]
    · cases hs
      exact u2
  · refine ⟨S, by rw [u3, h1], Or.inr ⟨h2, fun s hs => ?_⟩, hF, fun s hs => ?_⟩
    · rw [← h4 s hs, ← u4, u2]
    · rw [u4]
      exact h4 s hs

theorem frame_pend {c : Conf} {ch ch' : Chan} {i : Nat} {t : Trk} {f f' : Frame} {acc : List (Frame × Frame)} {b : Bool} (ht : ch.tracks[i]? = some t) (hp : Pend t acc b)
    (hr : (ring t).length = 3) (h : addFrame c ch i t f = .ok (ch', f')) : b = true → starts t.video f → f'.flags.testBit 4 = false →
      ∃ g, acc.head? = some g ∧ f'.dts - f.dts = g.2.dts - g.1.dts := by
  intro hb hs hf
  rcases hp hb with hp | ⟨g, g1, g2⟩
  · exfalso
    obtain ⟨-, -, a3, -, -⟩ := addFrame_ok (q := .fresh) ht hp h
    rw [a3 hs, bit16] at hf
    cases hf
  · obtain ⟨u, u1, u2, -, u4⟩ := frame_ring ht hr h
    exact ⟨g, g1, by rw [← u2, u4 hs hf, g2]⟩

/-! ## Runs -/

/-- What is known of a track. -/
def Good (t : Trk) (acc : List (Frame × Frame)) (b : Bool) (l : List Seen) : Prop := (ring t).length = 3 ∧ Pend t acc b ∧ (Inv t acc ∧ Loses acc l ∨ Stays l)

theorem Good.alike {t u : Trk} {acc : List (Frame × Frame)} {b : Bool} {l : List Seen} (h : Good t acc b l) (a : Alike t u) : Good u acc b l :=
  ⟨by rw [a]; exact h.1, h.2.1.alike a, h.2.2.imp (fun x => ⟨x.1.alike a, x.2⟩) id⟩

theorem ring_new (v : Bool) : ring { video := v } = pad [] := rfl

theorem reconnect_len {t u : Trk} {next : Nat} {p d : Int} (h : reconnect t next p d = .ok u) (hr : (ring t).length = 3) : (ring u).length = 3 := by
  unfold reconnect at h
  split at h
  · cases h
    exact hr
  · obtain ⟨q, -, h⟩ := bind_ok_iff h
    cases h
    obtain ⟨a, b, c, h1, h2⟩ := ring_shape hr
    unfold ring
    simp only [h1, removeLogs, List.map_cons, List.map_nil]
    rcases h2 with h2 | h2 | h2 <;> rw [h2] <;> rfl

theorem run_back {c : Conf} {evs : List Ev} : ∀ {ch ch' : Chan} {s : List (Nat × Seen)} {i : Nat} {acc : List (Frame × Frame)} {b : Bool}, run c ch evs = .ok (ch', s) →
    (∀ t, ch.tracks[i]? = some t → Good t acc b (story i s)) → (ch.tracks[i]? = none → acc = [] ∧ Loses [] (story i s)) → Ordered acc (story i s) → Resumes acc b (story i s) := by
  induction evs with
  | nil =>
    intro ch ch' s i acc b h _ _ _
    simp only [run, Res.ok.injEq, Prod.mk.injEq] at h
    obtain ⟨rfl, rfl⟩ := h
    trivial
  | cons e l ih =>
    intro ch ch' s i acc b h hg hnone ho
    unfold run at h
    obtain ⟨⟨ch1, s1⟩, h1, h⟩ := bind_ok_iff h
    obtain ⟨⟨ch2, s2⟩, h2, he⟩ := map_ok_iff h
    simp only [Prod.mk.injEq] at he
    obtain ⟨rfl, rfl⟩ := he
    have hrest : story i s1 = [] → (∀ t, ch1.tracks[i]? = some t → ∃ t0, ch.tracks[i]? = some t0 ∧ Alike t0 t) → (ch1.tracks[i]? = none → ch.tracks[i]? = none) →
        Resumes acc b (story i (s1 ++ s2)) := by
      intro hs hk hn
      rw [story_append, hs, List.nil_append] at ho hg hnone ⊢
      exact ih h2 (fun t ht => by
        obtain ⟨t0, k1, k2⟩ := hk t ht
        exact (hg t0 k1).alike k2) (fun hh => hnone (hn hh)) ho
    cases e with
    | add video =>
      simp only [step, Res.ok.injEq, Prod.mk.injEq] at h1
      obtain ⟨rfl, rfl⟩ := h1
      by_cases hi : i = ch.tracks.length
      · subst hi
        have hs : story ch.tracks.length ((ch.tracks.length, Seen.reset) :: s2) = .reset :: story ch.tracks.length s2 := by simp [story]
        have hs' : story ch.tracks.length ([(ch.tracks.length, Seen.reset)] ++ s2) = .reset :: story ch.tracks.length s2 := hs
        rw [hs'] at ho hnone ⊢
        obtain ⟨n1, n2⟩ := hnone (List.getElem?_eq_none (Nat.le_refl _))
        subst n1
        refine ih h2 (fun t ht => ?_) (fun hh => ?_) ho
        · simp only [List.getElem?_append_right (Nat.le_refl _), Nat.sub_self, List.getElem?_cons_zero, Option.some.injEq] at ht
          subst ht
          exact ⟨rfl, fun hb => (by cases hb), Or.inl ⟨⟨[], rfl, rfl, List.Pairwise.nil, fun s hs => by cases hs⟩, n2⟩⟩
        · simp at hh
      · refine hrest (by simp [story, Ne.symm hi]) (fun t ht => ?_) (fun hh => ?_)
        · by_cases hlt : i < ch.tracks.length
          · simp only [List.getElem?_append_left hlt] at ht
            exact ⟨t, ht, rfl⟩
          · simp only [List.getElem?_append_right (Nat.le_of_not_lt hlt)] at ht
            rw [List.getElem?_eq_none (by simp; omega)] at ht
            cases ht
        · rw [List.getElem?_eq_none_iff] at hh ⊢
          simp at hh
          omega
    | frame j f =>
      unfold step at h1
      simp only [] at h1
      split at h1
      · cases h1
      rename_i t ht
      obtain ⟨x, hx, he⟩ := map_ok_iff h1
      simp only [Prod.mk.injEq] at he
      obtain ⟨rfl, rfl⟩ := he
      have hlen : x.1.tracks.length = ch.tracks.length := addFrame_length hx
      by_cases hi : i = j
      · subst hi
        have hs : story i ([(i, Seen.frame t.video f x.2)] ++ s2) = .frame t.video f x.2 :: story i s2 := by simp [story]
        rw [hs] at ho hg ⊢
        obtain ⟨g1, g2, g3⟩ := hg t ht
        refine ⟨frame_pend ht g2 g1 hx, ?_⟩
        obtain ⟨u, u1, u2, u3, -⟩ := frame_ring ht g1 hx
        have hul : (ring u).length = 3 := by
          rcases u3 with u3 | ⟨u3, -⟩
          · rw [u3]; simp [g1]
          · rw [u3]; exact g1
        refine ih h2 (fun w hw => ?_) (fun hh => ?_) ho.2
        · rw [u1] at hw
          cases hw
          refine ⟨hul, fun hb => (by cases hb), ?_⟩
          rcases g3 with ⟨g3, g4⟩ | g3
          · obtain ⟨u', u1', u2'⟩ := frame_inv ht g3 ho.1 hx
            rw [u1] at u1'
            cases u1'
            exact Or.inl ⟨u2', g4⟩
          · exact Or.inr g3
        · rw [u1] at hh
          cases hh
      · obtain ⟨-, -, -, -, a5⟩ := addFrame_ok (ch' := x.1) (f' := x.2) (q := .unknown) ht trivial hx
        refine hrest (by simp [story, Ne.symm hi]) (fun t' ht' => ?_) (fun hh => ?_)
        · cases hc : ch.tracks[i]? with
          | some u =>
            obtain ⟨w, w1, w2⟩ := a5 i u hi hc
            rw [ht'] at w1
            cases w1
            exact ⟨u, rfl, w2⟩
          | none =>
            exfalso
            rw [List.getElem?_eq_none_iff] at hc
            have := (List.getElem?_eq_some_iff.1 ht').1
            omega
        · rw [List.getElem?_eq_none_iff] at hh ⊢
          omega
    | inactive j =>
      unfold step at h1
      simp only [] at h1
      split at h1
      · cases h1
      rename_i t ht
      simp only [Res.ok.injEq, Prod.mk.injEq] at h1
      obtain ⟨rfl, rfl⟩ := h1
      by_cases hi : i = j
      · subst hi
        have hs : story i ([(i, Seen.reset)] ++ s2) = .reset :: story i s2 := by simp [story]
        rw [hs] at ho hg ⊢
        obtain ⟨g1, g2, g3⟩ := hg t ht
        refine ih h2 (fun w hw => ?_) (fun hh => ?_) ho
        · simp only [List.getElem?_set_self (List.getElem?_eq_some_iff.1 ht).1, Option.some.injEq] at hw
          subst hw
          exact ⟨g1, fun hb => (by cases hb), g3⟩
        · simp only [List.getElem?_set_self (List.getElem?_eq_some_iff.1 ht).1] at hh
          cases hh
      · refine hrest (by simp [story, Ne.symm hi]) (fun t' ht' => ?_) (fun hh => ?_)
        · simp only [List.getElem?_set_ne (Ne.symm hi)] at ht'
          exact ⟨t', ht', rfl⟩
        · simp only [List.getElem?_set_ne (Ne.symm hi)] at hh
          exact hh
    | reconnect j next p d =>
      unfold step at h1
      simp only [] at h1
      split at h1
      · cases h1
      rename_i t ht
      obtain ⟨x, hx, he⟩ := map_ok_iff h1
      simp only [Prod.mk.injEq] at he
      obtain ⟨rfl, rfl⟩ := he
      by_cases hi : i = j
      · subst hi
        have hs : story i ([(i, Seen.back next)] ++ s2) = .back next :: story i s2 := by simp [story]
        rw [hs] at ho hg ⊢
        obtain ⟨g1, g2, g3⟩ := hg t ht
        refine ih h2 (fun w hw => ?_) (fun hh => ?_) ho
        · simp only [List.getElem?_set_self (List.getElem?_eq_some_iff.1 ht).1, Option.some.injEq] at hw
          subst hw
          rcases g3 with ⟨g3, g4⟩ | g3
          · obtain ⟨r1, r2⟩ := reconnect_inv hx g3
            refine ⟨reconnect_len hx g1, r1, ?_⟩
            rcases g4 with ⟨g4, g5⟩ | g4
            · have hfil : (acc.filter fun x => decide (x.1.id < next)) = acc := List.filter_eq_self.2 (fun a ha => by simpa using g4 a ha)
              rw [hfil]
              exact Or.inl ⟨r2 g4, g5⟩
            · exact Or.inr g4
          · exact g3.elim
        · simp only [List.getElem?_set_self (List.getElem?_eq_some_iff.1 ht).1] at hh
          cases hh
      · refine hrest (by simp [story, Ne.symm hi]) (fun t' ht' => ?_) (fun hh => ?_)
        · simp only [List.getElem?_set_ne (Ne.symm hi)] at ht'
          exact ⟨t', ht', rfl⟩
        · simp only [List.getElem?_set_ne (Ne.symm hi)] at hh
          exact hh

/-- **C120** (part). A track that connects again goes on with the shift of the last frame that was kept, or starts a split. Missing: tracks that connect again after they lost frames by that before
(`not_resumes`). -/
theorem resumes_partial {c : Conf} {evs : List Ev} {ch : Chan} {s : List (Nat × Seen)} (h : run c {} evs = .ok (ch, s)) (i : Nat) (ho : Ordered [] (story i s)) (hl : Loses [] (story i s)) :
    Resumes [] false (story i s) :=
  run_back h (fun t ht => by simp at ht) (fun _ => ⟨rfl, hl⟩) ho

end Verif.Syncer
