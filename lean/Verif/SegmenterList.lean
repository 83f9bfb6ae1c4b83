import Verif.Segmenter

/-!
# The lists of parts of the segmenter, seen as one list
-/

namespace Verif.Segmenter

/-- A C call that does not misbehave, and a condition on its result when it succeeds. -/
def Sat (x : Res α) (P : α → Prop) : Prop :=
  match x with
  | .ok a => P a
  | .err => True
  | .ub => False

@[simp] theorem sat_ok (a : α) (P : α → Prop) : Sat (.ok a) P ↔ P a := Iff.rfl
@[simp] theorem sat_err (P : α → Prop) : Sat (.err : Res α) P ↔ True := Iff.rfl
@[simp] theorem sat_ub (P : α → Prop) : Sat (.ub : Res α) P ↔ False := Iff.rfl

theorem sat_bind {α β : Type} {x : Res α} {f : α → Res β} {P : α → Prop} {Q : β → Prop} (h : Sat x P) (hf : ∀ a, P a → Sat (f a) Q) :
    Sat (x >>= f) Q := by
  cases x with
  | ok a => exact hf a h
  | err => trivial
  | ub => exact h.elim

theorem sat_mono {x : Res α} {P Q : α → Prop} (h : Sat x P) (hf : ∀ a, P a → Q a) : Sat x Q := by
  cases x with
  | ok a => exact hf a h
  | err => trivial
  | ub => exact h.elim

theorem sat_and {x : Res α} {P Q : α → Prop} (h : Sat x P) (h' : Sat x Q) : Sat x fun a => P a ∧ Q a := by
  cases x with
  | ok a => exact ⟨h, h'⟩
  | err => trivial
  | ub => exact h.elim

/-! ## Parts -/

/-- A list of parts: only the first part can be empty, and then it is the only one. -/
def PartsOk (n : Nat) : List (List α) → Prop
  | [] => False
  | p :: ps => (p = [] → ps = []) ∧ (∀ q ∈ ps, q ≠ []) ∧ ∀ q ∈ p :: ps, q.length ≤ n

theorem push_tail (n : Nat) (hn : 0 < n) (x : α) : ∀ (ps : List (List α)), ps ≠ [] →
    (pushPart n x ps).flatten = ps.flatten ++ [x] ∧ pushPart n x ps ≠ [] ∧
    (∀ q ∈ (pushPart n x ps), q ≠ [] ∨ (q ∈ ps ∧ ps.length > 1)) ∧ ((∀ q ∈ ps, q.length ≤ n) → ∀ q ∈ pushPart n x ps, q.length ≤ n) := by
  intro ps hne
  induction ps with
  | nil => exact absurd rfl hne
  | cons p ps ih =>
    cases ps with
    | nil =>
      simp only [pushPart]
      split
      · rename_i h
        refine ⟨by simp, by simp, ?_, ?_⟩
        · intro q hq
          simp only [List.mem_cons, List.not_mem_nil, or_false] at hq
          rcases hq with rfl | rfl
          · left
            intro h0
            rw [h0] at h
            simp at h
            omega
          · left; simp
        · intro hl q hq
          simp only [List.mem_cons, List.not_mem_nil, or_false] at hq
          rcases hq with rfl | rfl
          · exact hl _ (by simp)
          · simp; omega
      · rename_i h
        refine ⟨by simp, by simp, ?_, ?_⟩
        · intro q hq
          simp only [List.mem_cons, List.not_mem_nil, or_false] at hq
          subst hq
          left; simp
        · intro hl q hq
          simp only [List.mem_cons, List.not_mem_nil, or_false] at hq
          subst hq
          simp; omega
    | cons p' ps =>
      obtain ⟨h1, h2, h3, h4⟩ := ih (by simp)
      rw [show pushPart n x (p :: p' :: ps) = p :: pushPart n x (p' :: ps) from rfl]
      refine ⟨?_, by simp, ?_, ?_⟩
      · rw [List.flatten_cons, h1]; simp
      · intro q hq
        rcases List.mem_cons.1 hq with rfl | hq
        · right; simp
        · rcases h3 q hq with h | h
          · exact .inl h
          · right
            exact ⟨List.mem_cons_of_mem _ h.1, by simp⟩
      · intro hl q hq
        rcases List.mem_cons.1 hq with rfl | hq
        · exact hl _ (by simp)
        · exact h4 (fun q hq => hl q (List.mem_cons_of_mem _ hq)) q hq

theorem push_ok {n : Nat} (hn : 0 < n) (x : α) {ps : List (List α)} (h : PartsOk n ps) :
    PartsOk n (pushPart n x ps) ∧ (pushPart n x ps).flatten = ps.flatten ++ [x] := by
  cases ps with
  | nil => exact h.elim
  | cons p ps =>
    obtain ⟨ha, hb, hc⟩ := h
    obtain ⟨h1, h2, h3, h4⟩ := push_tail n hn x (p :: ps) (by simp)
    refine ⟨?_, h1⟩
    have key : ∀ q ∈ pushPart n x (p :: ps), q ≠ [] := by
      intro q hq
      rcases h3 q hq with h | ⟨h, hl⟩
      · exact h
      · rcases List.mem_cons.1 h with rfl | h
        · intro h0
          rw [ha h0] at hl
          simp at hl
        · exact hb _ h
    have hl := h4 hc
    cases hp : pushPart n x (p :: ps) with
    | nil => exact absurd hp h2
    | cons q qs =>
      rw [hp] at key hl
      exact ⟨fun h0 => absurd h0 (key q (by simp)), fun r hr => key r (List.mem_cons_of_mem _ hr), hl⟩

/-! ## Removal of frames -/

/-- The sum of the jumps at splits, between adjacent frames. -/
def gaps : Frame → List Frame → Int
  | _, [] => 0
  | f, g :: gs => (if g.split then g.i.pts - f.i.pts else 0) + gaps g gs

def gapsL : List Frame → Int
  | [] => 0
  | f :: fs => gaps f fs

/-- The number of splits after the first frame. -/
def splits (fs : List Frame) : Nat := (fs.drop 1).countP (·.split)

def Rm.is (r : Rm) (f : Frame) : Prop := r.lastId = f.i.id ∧ r.lastPts = f.i.pts ∧ r.lastDts = f.i.dts

theorem note_is (r : Rm) (f : Frame) : (r.note f).is f := ⟨rfl, rfl, rfl⟩

/-- What the removal of `left` frames of `fs` leaves. -/
structure RmOk (left : Nat) (fs : List Frame) (r r' : Rm) (cur : List Frame) (next : List (List Frame)) (last : Option Frame) : Prop where
  flat : cur ++ next.flatten = fs.drop left
  one : cur = [] → next = []
  ne : ∀ q ∈ next, q ≠ []
  last : ∃ l, (fs.take left).getLast? = some l ∧ (r'.noteOpt last).is l
  count : r'.splitCount = splits (fs.drop left)
  dur : r'.splitDur + gapsL (fs.drop left) = r.splitDur + gapsL fs
  shift : r'.shift = r.shift ∨ r'.shift = 0

theorem seen_ok (r : Rm) (f g : Frame) (gs : List Frame) (h : r.splitCount = splits (f :: g :: gs)) :
    ∃ r', r.seen f g = .ok r' ∧ r'.splitCount = splits (g :: gs) ∧
      r'.splitDur = r.splitDur + (if g.split then g.i.pts - f.i.pts else 0) ∧ (r'.shift = r.shift ∨ r'.shift = 0) ∧
      r'.lastId = r.lastId ∧ r'.lastPts = r.lastPts ∧ r'.lastDts = r.lastDts := by
  unfold Rm.seen
  simp only [splits, List.drop_succ_cons, List.drop_zero, List.countP_cons] at h
  split
  · rename_i hs
    rw [hs] at h
    rw [if_neg (by simp at h; omega)]
    refine ⟨_, rfl, ?_, rfl, ?_, rfl, rfl, rfl⟩
    · simp only [splits, List.drop_succ_cons, List.drop_zero]
      simp at h
      omega
    · simp only
      split
      · exact .inr rfl
      · exact .inl rfl
  · rename_i hs
    have hf : g.split = false := by simpa using hs
    rw [hf] at h
    refine ⟨r, rfl, ?_, by simp, .inl rfl, rfl, rfl, rfl⟩
    simp only [splits, List.drop_succ_cons, List.drop_zero]
    simpa using h

theorem take_last_cons (x y : α) (l : List α) (n : Nat) : ((x :: y :: l).take (n + 2)).getLast? = ((y :: l).take (n + 1)).getLast? := by
  simp [List.take_succ_cons, List.getLast?_cons_cons]

theorem rmSplit_ok : ∀ (left : Nat) (f : Frame) (rest : List Frame) (next : List (List Frame)) (r : Rm),
    0 < left → left ≤ 1 + (rest ++ next.flatten).length → (∀ q ∈ next, q ≠ []) → r.splitCount = splits (f :: (rest ++ next.flatten)) →
    ∃ r' last cur next', rmSplit left f rest next r = .ok (r', last, cur, next') ∧
      RmOk left (f :: (rest ++ next.flatten)) r r' cur next' last ∧
      (∀ n, (∀ q ∈ next, q.length ≤ n) → rest.length ≤ n → ∀ q ∈ cur :: next', q.length ≤ n + 1) := by
  intro left
  induction left with
  | zero => intro f rest next r h; omega
  | succ left ih =>
    intro f rest next r _ hle hne hc
    match rest, next with
    | g :: rest, next =>
      obtain ⟨r1, h1, h2, h3, h4, h5, h6, h7⟩ := seen_ok r f g (rest ++ next.flatten) hc
      rw [rmSplit, h1]
      simp only [Res.bind_ok]
      by_cases h0 : left = 0
      · subst h0
        rw [if_pos rfl]
        refine ⟨_, _, _, _, rfl, ⟨by simp, by simp, hne, ⟨f, by simp, note_is _ _⟩, ?_, ?_, h4⟩, ?_⟩
        · simpa using h2
        · simp only [List.drop_succ_cons, List.drop_zero, gapsL, List.cons_append, gaps, h3]
          omega
        · intro n hq hr q hq'
          rcases List.mem_cons.1 hq' with rfl | hq'
          · exact Nat.le_succ_of_le hr
          · exact Nat.le_succ_of_le (hq _ hq')
      · rw [if_neg h0]
        obtain ⟨r', last, cur, next', e, ok, hl⟩ := ih g rest next r1 (by omega) (by simp at hle ⊢; omega) hne h2
        refine ⟨r', last, cur, next', e, ⟨?_, ok.one, ok.ne, ?_, ?_, ?_, ?_⟩, ?_⟩
        · simpa using ok.flat
        · obtain ⟨l, e1, e2⟩ := ok.last
          refine ⟨l, ?_, e2⟩
          obtain ⟨m, rfl⟩ : ∃ m, left = m + 1 := ⟨left - 1, by omega⟩
          rw [List.cons_append, take_last_cons]
          exact e1
        · simpa using ok.count
        · have := ok.dur
          simp only [List.drop_succ_cons, List.cons_append, gapsL, gaps] at this ⊢
          omega
        · rcases ok.shift with h | h
          · rcases h4 with h' | h'
            · exact .inl (h.trans h')
            · exact .inr (h.trans h')
          · exact .inr h
        · intro n hq hr
          exact hl n hq (by simp at hr; omega)
    | [], [] =>
      have h0 : left = 0 := by simp at hle; omega
      subst h0
      rw [rmSplit, if_pos rfl]
      refine ⟨_, _, _, _, rfl, ⟨by simp, by simp, by simp, ⟨f, by simp, note_is _ _⟩, ?_, ?_, .inl rfl⟩, by simp⟩
      · simpa [splits] using hc
      · simp [gapsL, gaps]
    | [], [] :: nx => exact absurd rfl (hne [] (by simp))
    | [], (g :: rest) :: next =>
      obtain ⟨r1, h1, h2, h3, h4, h5, h6, h7⟩ := seen_ok (r.note f) f g (rest ++ next.flatten)
        (by rw [show (r.note f).splitCount = r.splitCount from rfl, hc]; simp)
      rw [rmSplit, h1]
      simp only [Res.bind_ok]
      have e0 : ([] ++ ((g :: rest) :: next).flatten : List Frame) = g :: (rest ++ next.flatten) := by simp
      rw [e0]
      have hne' : ∀ q ∈ next, q ≠ [] := fun q hq => hne q (List.mem_cons_of_mem _ hq)
      by_cases h0 : left = 0
      · subst h0
        rw [if_pos rfl]
        refine ⟨_, _, _, _, rfl, ⟨by simp, by simp, hne', ⟨f, by simp, h5, h6, h7⟩, ?_, ?_, h4⟩, ?_⟩
        · simpa using h2
        · simp only [List.drop_succ_cons, List.drop_zero, gapsL, gaps, h3]
          rw [show (r.note f).splitDur = r.splitDur from rfl]
          omega
        · intro n hq hr q hq'
          rcases List.mem_cons.1 hq' with rfl | hq'
          · exact Nat.le_succ_of_le (hq _ (by simp))
          · exact Nat.le_succ_of_le (hq _ (List.mem_cons_of_mem _ hq'))
      · rw [if_neg h0]
        obtain ⟨r', last, cur, next', e, ok, hl⟩ := ih g rest next r1 (by omega) (by simp at hle ⊢; omega) hne' h2
        refine ⟨r', last, cur, next', e, ⟨?_, ok.one, ok.ne, ?_, ?_, ?_, ?_⟩, ?_⟩
        · simpa using ok.flat
        · obtain ⟨l, e1, e2⟩ := ok.last
          refine ⟨l, ?_, e2⟩
          obtain ⟨m, rfl⟩ : ∃ m, left = m + 1 := ⟨left - 1, by omega⟩
          rw [take_last_cons]
          exact e1
        · simpa using ok.count
        · have := ok.dur
          rw [show (r.note f).splitDur = r.splitDur from rfl] at h3
          simp only [List.drop_succ_cons, gapsL, gaps] at this ⊢
          omega
        · rw [show (r.note f).shift = r.shift from rfl] at h4
          rcases ok.shift with h | h
          · rcases h4 with h' | h'
            · exact .inl (h.trans h')
            · exact .inr (h.trans h')
          · exact .inr h
        · intro n hq hr
          refine hl n (fun q hq' => hq q (List.mem_cons_of_mem _ hq')) ?_
          have := hq _ (List.mem_cons_self)
          simp at this
          omega

theorem gaps_zero : ∀ (f : Frame) (fs : List Frame), fs.countP (·.split) = 0 → gaps f fs = 0 := by
  intro f fs
  induction fs generalizing f with
  | nil => intro _; rfl
  | cons g gs ih =>
    intro h
    rw [List.countP_cons] at h
    have hg : g.split = false := by
      cases hs : g.split with
      | false => rfl
      | true => rw [hs] at h; simp at h
    rw [gaps, hg, ih g (by omega)]
    simp

theorem gapsL_zero (fs : List Frame) (h : splits fs = 0) : gapsL fs = 0 := by
  cases fs with
  | nil => rfl
  | cons f fs => exact gaps_zero f fs (by simpa [splits] using h)

theorem splits_drop (fs : List Frame) (n : Nat) (h : splits fs = 0) : splits (fs.drop n) = 0 := by
  unfold splits at *
  rw [List.drop_drop]
  rw [List.countP_eq_zero] at *
  intro a ha
  apply h
  rw [show n + 1 = 1 + n by omega, ← List.drop_drop] at ha
  exact List.mem_of_mem_drop ha

theorem rmFast_ok : ∀ (next : List (List Frame)) (left : Nat) (part : List Frame) (r : Rm),
    part ≠ [] → left ≤ (part ++ next.flatten).length → (∀ q ∈ next, q ≠ []) →
    ∃ r' last cur next', rmFast left part next r = .ok (r', last, cur, next') ∧
      cur ++ next'.flatten = (part ++ next.flatten).drop left ∧ (cur = [] → next' = []) ∧ (∀ q ∈ next', q ≠ []) ∧
      (∃ l, if left = 0 then r'.noteOpt last = r else
        ((part ++ next.flatten).take left).getLast? = some l ∧ (r'.noteOpt last).is l) ∧
      r'.splitCount = r.splitCount ∧ r'.splitDur = r.splitDur ∧ r'.shift = r.shift ∧
      (∀ n, (∀ q ∈ next, q.length ≤ n) → part.length ≤ n → ∀ q ∈ cur :: next', q.length ≤ n) := by
  intro next
  induction next with
  | nil =>
    intro left part r hp hle hne
    simp only [List.flatten_nil, List.append_nil] at hle ⊢
    rw [rmFast, if_neg (by omega)]
    refine ⟨_, _, _, _, rfl, by simp, by simp, by simp, ?_, rfl, rfl, rfl, ?_⟩
    · by_cases h0 : left = 0
      · subst h0
        obtain ⟨l, _⟩ := List.exists_mem_of_ne_nil _ hp
        exact ⟨l, by simp [Rm.noteOpt]⟩
      · have hlt : left - 1 < part.length := by omega
        refine ⟨part[left - 1], ?_⟩
        rw [if_neg h0, if_neg h0]
        refine ⟨?_, ?_⟩
        · rw [List.getLast?_take, if_neg h0]
          rw [List.getElem?_eq_getElem hlt]; rfl
        · rw [List.getElem?_eq_getElem hlt]
          exact note_is _ _
    · intro n _ h q hq
      simp only [List.mem_cons, List.not_mem_nil, or_false] at hq
      subst hq
      simp; omega
  | cons p next ih =>
    intro left part r hp hle hne
    rw [rmFast]
    split
    · rename_i hge
      have hlast : part.getLast? = some (part.getLast hp) := List.getLast?_eq_some_getLast hp
      rw [hlast]
      simp only
      have hpn : p ≠ [] := hne p (by simp)
      obtain ⟨r', last, cur, next', e, h1, h2, h3, h4, h5, h6, h7, h8⟩ := ih (left - part.length) p (r.note (part.getLast hp)) hpn
        (by simp at hle ⊢; omega) (fun q hq => hne q (List.mem_cons_of_mem _ hq))
      refine ⟨r', last, cur, next', e, ?_, h2, h3, ?_, h5, h6, h7, ?_⟩
      · have e1 : (part ++ (p :: next).flatten).drop left = (p ++ next.flatten).drop (left - part.length) := by
          rw [List.drop_append, List.drop_of_length_le hge]
          simp
        rw [e1, h1]
      · have hlpos : 0 < part.length := List.length_pos_iff.2 hp
        have hn0 : ¬ left = 0 := by omega
        obtain ⟨l, hl⟩ := h4
        by_cases h0 : left - part.length = 0
        · rw [if_pos h0] at hl
          have : left = part.length := by omega
          refine ⟨part.getLast hp, ?_⟩
          rw [if_neg hn0]
          refine ⟨?_, ?_⟩
          · rw [this, List.take_left' rfl, hlast]
          · rw [hl]; exact note_is _ _
        · rw [if_neg h0] at hl
          refine ⟨l, ?_⟩
          rw [if_neg hn0]
          refine ⟨?_, hl.2⟩
          rw [List.take_append, List.take_of_length_le hge, List.flatten_cons, List.getLast?_append, hl.1]
          rfl
      · intro n hq hr
        exact h8 n (fun q hq' => hq q (List.mem_cons_of_mem _ hq')) (hq p (by simp))
    · rename_i hlt
      have hlt : left < part.length := by omega
      refine ⟨_, _, _, _, rfl, ?_, ?_, hne, ?_, rfl, rfl, rfl, ?_⟩
      · rw [List.drop_append_of_le_length (by omega)]
      · intro h
        have := congrArg List.length h
        simp at this
        omega
      · by_cases h0 : left = 0
        · subst h0
          exact ⟨part[0], by simp [Rm.noteOpt]⟩
        · have hlt' : left - 1 < part.length := by omega
          refine ⟨part[left - 1], ?_⟩
          rw [if_neg h0, if_neg h0]
          refine ⟨?_, ?_⟩
          · rw [List.take_append_of_le_length (by omega), List.getLast?_take, if_neg h0]
            rw [List.getElem?_eq_getElem hlt']; rfl
          · rw [List.getElem?_eq_getElem hlt']
            exact note_is _ _
      · intro n hq hr q hq'
        rcases List.mem_cons.1 hq' with rfl | hq'
        · simp; omega
        · exact hq _ hq'

/-- The removal of frames from the pending list. -/
theorem frameRemove_ok {parts : List (List Frame)} (h : PartsOk framePart parts) (shift count : Nat) (free : Bool)
    (h0 : 0 < count) (hle : count ≤ parts.flatten.length) :
    ∃ r parts', frameRemove parts shift (splits parts.flatten) count free = .ok (r, parts') ∧
      PartsOk framePart parts' ∧ parts'.flatten = parts.flatten.drop count ∧
      (∃ l, (parts.flatten.take count).getLast? = some l ∧ r.is l) ∧
      r.splitCount = splits (parts.flatten.drop count) ∧
      r.splitDur + gapsL (parts.flatten.drop count) = gapsL parts.flatten ∧ (r.shift = shift ∨ r.shift = 0) := by
  match parts, h with
  | [] :: ps, h =>
    rw [h.1 rfl] at hle
    simp at hle
    omega
  | (f :: rest) :: next, h =>
    obtain ⟨ha, hb, hc⟩ := h
    have e0 : ((f :: rest) :: next).flatten = f :: (rest ++ next.flatten) := by simp
    rw [e0] at *
    unfold frameRemove
    simp only
    generalize hs : (if free = true ∧ f.reset = true ∧ shift > 0 then 0 else shift) = sh
    have hsh : sh = shift ∨ sh = 0 := by
      rw [← hs]
      split
      · exact .inr rfl
      · exact .inl rfl
    have hlen : ∀ q ∈ next, q.length ≤ framePart - 1 + 1 := fun q hq => hc q (List.mem_cons_of_mem _ hq)
    by_cases hsp : splits (f :: (rest ++ next.flatten)) > 0
    · rw [if_pos hsp]
      obtain ⟨r', last, cur, next', e, ok, hl⟩ := rmSplit_ok count f rest next { splitCount := splits (f :: (rest ++ next.flatten)), shift := sh }
        h0 (by simp at hle ⊢; omega) hb rfl
      rw [e]
      simp only [Res.bind_ok]
      have hsc : (r'.noteOpt last).splitCount = r'.splitCount := by cases last <;> rfl
      have hsd : (r'.noteOpt last).splitDur = r'.splitDur := by cases last <;> rfl
      have hss : (r'.noteOpt last).shift = r'.shift := by cases last <;> rfl
      refine ⟨_, _, rfl, ⟨ok.one, ok.ne, ?_⟩, ?_, ok.last, ?_, ?_, ?_⟩
      · have hr : rest.length ≤ framePart := by
          have := hc (f :: rest) (by simp)
          simp at this; omega
        -- the parts are tails of the old parts
        intro q hq
        have key : ∀ (left : Nat) (f : Frame) (rest : List Frame) (next : List (List Frame)) (r r' : Rm) (last : Option Frame)
            (cur : List Frame) (next' : List (List Frame)), (∀ q ∈ (f :: rest) :: next, q.length ≤ framePart) →
            rmSplit left f rest next r = .ok (r', last, cur, next') → ∀ q ∈ cur :: next', q.length ≤ framePart := by
          intro left
          induction left with
          | zero => intro f rest next r r' last cur next' _ h; rw [rmSplit] at h; simp at h
          | succ left ih =>
            intro f rest next r r' last cur next' hl h
            match rest, next with
            | g :: rest, next =>
              rw [rmSplit] at h
              cases hse : r.seen f g with
              | err => rw [hse] at h; simp at h
              | ub => rw [hse] at h; simp at h
              | ok r1 =>
                rw [hse] at h
                simp only [Res.bind_ok] at h
                have hl' : ∀ q ∈ (g :: rest) :: next, q.length ≤ framePart := by
                  intro q hq
                  rcases List.mem_cons.1 hq with rfl | hq
                  · have := hl _ List.mem_cons_self
                    simp at this ⊢; omega
                  · exact hl _ (List.mem_cons_of_mem _ hq)
                split at h
                · simp only [Res.ok.injEq, Prod.mk.injEq] at h
                  obtain ⟨_, _, rfl, rfl⟩ := h
                  exact hl'
                · exact ih _ _ _ _ _ _ _ _ hl' h
            | [], [] =>
              rw [rmSplit] at h
              split at h
              · simp only [Res.ok.injEq, Prod.mk.injEq] at h
                obtain ⟨_, _, rfl, rfl⟩ := h
                simp
              · simp at h
            | [], [] :: nx => rw [rmSplit] at h; simp at h
            | [], (g :: rest) :: next =>
              rw [rmSplit] at h
              cases hse : (r.note f).seen f g with
              | err => rw [hse] at h; simp at h
              | ub => rw [hse] at h; simp at h
              | ok r1 =>
                rw [hse] at h
                simp only [Res.bind_ok] at h
                have hl' : ∀ q ∈ (g :: rest) :: next, q.length ≤ framePart :=
                  fun q hq => hl _ (List.mem_cons_of_mem _ hq)
                split at h
                · simp only [Res.ok.injEq, Prod.mk.injEq] at h
                  obtain ⟨_, _, rfl, rfl⟩ := h
                  exact hl'
                · exact ih _ _ _ _ _ _ _ _ hl' h
        exact key _ _ _ _ _ _ _ _ _ hc e q hq
      · rw [List.flatten_cons]; exact ok.flat
      · rw [hsc]; exact ok.count
      · rw [hsd]
        have := ok.dur
        rw [show ({ splitCount := splits (f :: (rest ++ next.flatten)), shift := sh } : Rm).splitDur = 0 from rfl] at this
        omega
      · rw [hss]
        rcases ok.shift with h | h
        · rw [h]; exact hsh
        · exact .inr h
    · rw [if_neg hsp]
      have hz : splits (f :: (rest ++ next.flatten)) = 0 := by omega
      obtain ⟨r', last, cur, next', e, h1, h2, h3, h4, h5, h6, h7, h8⟩ := rmFast_ok next count (f :: rest)
        { splitCount := splits (f :: (rest ++ next.flatten)), shift := sh } (by simp) (by simp at hle ⊢; omega) hb
      rw [e]
      simp only [Res.bind_ok]
      have hsc : (r'.noteOpt last).splitCount = r'.splitCount := by cases last <;> rfl
      have hsd : (r'.noteOpt last).splitDur = r'.splitDur := by cases last <;> rfl
      have hss : (r'.noteOpt last).shift = r'.shift := by cases last <;> rfl
      have e1 : (f :: rest) ++ next.flatten = f :: (rest ++ next.flatten) := rfl
      rw [e1] at h1 h4
      have hzd := splits_drop _ count hz
      refine ⟨_, _, rfl, ⟨h2, h3, ?_⟩, ?_, ?_, ?_, ?_, ?_⟩
      · exact h8 framePart (fun q hq => hc q (List.mem_cons_of_mem _ hq)) (hc _ (by simp))
      · rw [List.flatten_cons]; exact h1
      · obtain ⟨l, hl⟩ := h4
        rw [if_neg (by omega)] at hl
        exact ⟨l, hl⟩
      · rw [hsc, h5, hzd, hz]
      · rw [hsd, h6, gapsL_zero _ hzd, gapsL_zero _ hz]
        rfl
      · rw [hss, h7]; exact hsh

/-! ## Key frames -/

/-- The records of the key frames of a list of frames. `d` is the distance from the key frame before the list, `p` the time
of the frame before the list, when it is known. -/
def KfOk : Nat → Option Int → List Frame → List Kf → Prop
  | _, _, [], ks => ks = []
  | d, p, f :: fs, ks =>
    if f.i.key then
      match ks with
      | [] => False
      | k :: ks => k.pts = f.i.pts ∧ (∀ x ∈ p, k.prevPts = x) ∧ k.split = f.split ∧ k.reset = f.reset ∧ k.delta = d ∧
          KfOk 1 (some f.i.pts) fs ks
    else KfOk (d + 1) (some f.i.pts) fs ks

theorem kfOk_cons (d : Nat) (p : Option Int) (f : Frame) (fs : List Frame) (ks : List Kf) :
    KfOk d p (f :: fs) ks =
      if f.i.key then
        match ks with
        | [] => False
        | k :: ks => k.pts = f.i.pts ∧ (∀ x ∈ p, k.prevPts = x) ∧ k.split = f.split ∧ k.reset = f.reset ∧ k.delta = d ∧
            KfOk 1 (some f.i.pts) fs ks
      else KfOk (d + 1) (some f.i.pts) fs ks := by
  conv => lhs; unfold KfOk

/-- Removal in the list of all key frames. -/
def kfFlat : Nat → List Kf → List Kf
  | _, [] => []
  | left, k :: ks => if k.delta ≥ left then { k with delta := k.delta - left } :: ks else kfFlat (left - k.delta) ks

theorem kfPart_flat : ∀ (part : List Kf) (left : Nat) (tail : List Kf),
    match kfPart left part with
    | (some rest, _) => kfFlat left (part ++ tail) = rest ++ tail ∧ rest ≠ [] ∧ rest.length ≤ part.length
    | (none, left') => kfFlat left (part ++ tail) = kfFlat left' tail := by
  intro part
  induction part with
  | nil => intro left tail; simp [kfPart]
  | cons k ks ih =>
    intro left tail
    rw [kfPart]
    by_cases h : k.delta ≥ left
    · rw [if_pos h]
      simp only [List.cons_append, kfFlat, if_pos h]
      simp
    · rw [if_neg h]
      have := ih (left - k.delta) tail
      revert this
      cases hk : kfPart (left - k.delta) ks with
      | mk a b =>
        cases a with
        | some rest =>
          simp only [List.cons_append, kfFlat, if_neg h]
          intro ⟨h1, h2, h3⟩
          exact ⟨h1, h2, by simp; omega⟩
        | none =>
          simp only [List.cons_append, kfFlat, if_neg h]
          exact id

theorem kfParts_ok : ∀ (next : List (List Kf)) (left : Nat) (part : List Kf), PartsOk kfPartMax (part :: next) →
    ∃ ps, kfParts left part next = .ok ps ∧ PartsOk kfPartMax ps ∧ ps.flatten = kfFlat left (part :: next).flatten := by
  intro next
  induction next with
  | nil =>
    intro left part h
    rw [kfParts]
    have := kfPart_flat part left []
    revert this
    cases hk : kfPart left part with
    | mk a b =>
      cases a with
      | some rest =>
        intro ⟨h1, h2, h3⟩
        refine ⟨_, rfl, ⟨fun h => absurd h h2, by simp, ?_⟩, ?_⟩
        · intro q hq
          simp only [List.mem_cons, List.not_mem_nil, or_false] at hq
          subst hq
          exact Nat.le_trans h3 (h.2.2 part (by simp))
        · simpa using h1.symm
      | none =>
        intro h1
        refine ⟨_, rfl, ⟨by simp, by simp, by simp⟩, ?_⟩
        simp only [List.append_nil] at h1
        simp [h1, kfFlat]
  | cons p next ih =>
    intro left part h
    obtain ⟨ha, hb, hc⟩ := h
    rw [kfParts]
    have := kfPart_flat part left (p :: next).flatten
    revert this
    cases hk : kfPart left part with
    | mk a b =>
      cases a with
      | some rest =>
        intro ⟨h1, h2, h3⟩
        refine ⟨_, rfl, ⟨fun h => absurd h h2, hb, ?_⟩, ?_⟩
        · intro q hq
          rcases List.mem_cons.1 hq with rfl | hq
          · exact Nat.le_trans h3 (hc part (by simp))
          · exact hc _ (List.mem_cons_of_mem _ hq)
        · rw [List.flatten_cons, ← h1]
          simp
      | none =>
        intro h1
        have hp : p ≠ [] := hb p (by simp)
        cases p with
        | nil => exact absurd rfl hp
        | cons k ks =>
          simp only
          obtain ⟨ps, e, ok, fl⟩ := ih b (k :: ks)
            ⟨fun h => by simp at h, fun q hq => hb q (List.mem_cons_of_mem _ hq), fun q hq => hc q (List.mem_cons_of_mem _ hq)⟩
          refine ⟨ps, e, ok, ?_⟩
          rw [fl, List.flatten_cons (l := part), ← h1]

theorem kfOk_weaken : ∀ (fs : List Frame) (d : Nat) (p : Option Int) (ks : List Kf), KfOk d p fs ks → KfOk d none fs ks := by
  intro fs
  cases fs with
  | nil => intro d p ks h; exact h
  | cons f fs =>
    intro d p ks h
    rw [kfOk_cons] at h ⊢
    split
    · rename_i hk
      rw [if_pos hk] at h
      cases ks with
      | nil => exact h
      | cons k ks => exact ⟨h.1, by simp, h.2.2⟩
    · rename_i hk
      rw [if_neg hk] at h
      exact h

/-- The distance of the first key frame is counted from another place. -/
theorem kfOk_shift : ∀ (fs : List Frame) (d e : Nat) (p : Option Int) (ks : List Kf), KfOk (d + e) p fs ks → KfOk e p fs (kfFlat d ks) := by
  intro fs
  induction fs with
  | nil =>
    intro d e p ks h
    unfold KfOk at *
    subst h
    rfl
  | cons f fs ih =>
    intro d e p ks h
    rw [kfOk_cons] at h ⊢
    split
    · rename_i hk
      rw [if_pos hk] at h
      cases ks with
      | nil => exact h.elim
      | cons k ks =>
        simp only at h
        obtain ⟨h1, h2, h3, h4, h5, h6⟩ := h
        rw [kfFlat, if_pos (by omega)]
        exact ⟨h1, h2, h3, h4, by simp; omega, h6⟩
    · rename_i hk
      rw [if_neg hk] at h
      exact ih d (e + 1) _ ks h

theorem kfFlat_ok : ∀ (fs : List Frame) (n d : Nat) (p : Option Int) (ks : List Kf), KfOk d p fs ks →
    KfOk 0 none (fs.drop n) (kfFlat (d + n) ks) := by
  intro fs
  induction fs with
  | nil =>
    intro n d p ks h
    unfold KfOk at h
    subst h
    simp [KfOk, kfFlat]
  | cons f fs ih =>
    intro n d p ks h
    cases n with
    | zero =>
      exact kfOk_shift _ d 0 none ks (kfOk_weaken _ _ p _ h)
    | succ n =>
      rw [List.drop_succ_cons]
      unfold KfOk at h
      split at h
      · cases ks with
        | nil => exact h.elim
        | cons k ks =>
          simp only at h
          obtain ⟨h1, h2, h3, h4, h5, h6⟩ := h
          rw [kfFlat, if_neg (by omega)]
          have := ih n 1 _ ks h6
          rw [show d + (n + 1) - k.delta = 1 + n by omega]
          exact this
      · have := ih n (d + 1) _ ks h
        rw [show d + (n + 1) = d + 1 + n by omega]
        exact this

/-- The position of the last key frame, 0 when there is none. -/
def keyIdx : List Frame → Nat
  | [] => 0
  | _ :: fs => if fs.any (·.i.key) then keyIdx fs + 1 else 0

theorem keyIdx_none : ∀ (fs : List Frame), fs.any (·.i.key) = false → keyIdx fs = 0 := by
  intro fs h
  cases fs with
  | nil => rfl
  | cons f fs =>
    rw [List.any_cons, Bool.or_eq_false_iff] at h
    rw [keyIdx, h.2]
    rfl

theorem keyIdx_drop : ∀ (fs : List Frame) (n : Nat), keyIdx (fs.drop n) = keyIdx fs - n := by
  intro fs
  induction fs with
  | nil => intro n; simp [keyIdx]
  | cons f fs ih =>
    intro n
    cases n with
    | zero => simp
    | succ n =>
      rw [List.drop_succ_cons, ih n, keyIdx]
      split
      · omega
      · rename_i h
        rw [keyIdx_none fs (by simpa using h)]
        omega

theorem keyIdx_push_key : ∀ (fs : List Frame) (f : Frame), f.i.key = true → keyIdx (fs ++ [f]) = fs.length := by
  intro fs f hf
  induction fs with
  | nil => simp [keyIdx]
  | cons g fs ih =>
    rw [List.cons_append, keyIdx, if_pos (by simp [hf]), ih]
    simp

theorem keyIdx_push : ∀ (fs : List Frame) (f : Frame), f.i.key = false → keyIdx (fs ++ [f]) = keyIdx fs := by
  intro fs f hf
  induction fs with
  | nil => simp [keyIdx]
  | cons g fs ih =>
    rw [List.cons_append, keyIdx, keyIdx, ih, List.any_append]
    simp [hf]

theorem keyIdx_le : ∀ (fs : List Frame), fs ≠ [] → keyIdx fs < fs.length := by
  intro fs
  induction fs with
  | nil => intro h; exact absurd rfl h
  | cons f fs ih =>
    intro _
    rw [keyIdx]
    split
    · rename_i h
      have := ih (by intro h0; rw [h0] at h; simp at h)
      simp; omega
    · simp

theorem kfOk_push : ∀ (fs : List Frame) (d : Nat) (p : Option Int) (ks : List Kf) (f : Frame), f.i.key = false →
    KfOk d p fs ks → KfOk d p (fs ++ [f]) ks := by
  intro fs
  induction fs with
  | nil =>
    intro d p ks f hf h
    simp only [List.nil_append]
    unfold KfOk at *
    rw [if_neg (by simp [hf])]
    unfold KfOk
    exact h
  | cons g fs ih =>
    intro d p ks f hf h
    rw [List.cons_append]
    rw [kfOk_cons] at h ⊢
    split
    · rename_i hk
      rw [if_pos hk] at h
      cases ks with
      | nil => exact h
      | cons k ks =>
        simp only at h ⊢
        obtain ⟨h1, h2, h3, h4, h5, h6⟩ := h
        exact ⟨h1, h2, h3, h4, h5, ih _ _ _ f hf h6⟩
    · rename_i hk
      rw [if_neg hk] at h
      exact ih _ _ _ f hf h

theorem kfOk_push_key : ∀ (fs : List Frame) (d : Nat) (p : Option Int) (ks : List Kf) (f : Frame) (k : Kf), f.i.key = true →
    KfOk d p fs ks → k.pts = f.i.pts → k.split = f.split → k.reset = f.reset →
    (match fs.getLast? with | none => ∀ x ∈ p, k.prevPts = x | some l => k.prevPts = l.i.pts) →
    k.delta = (if fs.any (·.i.key) then fs.length - keyIdx fs else d + fs.length) →
    KfOk d p (fs ++ [f]) (ks ++ [k]) := by
  intro fs
  induction fs with
  | nil =>
    intro d p ks f k hf h e1 e2 e3 e4 e5
    unfold KfOk at h
    subst h
    simp only [List.nil_append]
    unfold KfOk
    rw [if_pos hf]
    simp only [List.getLast?_nil] at e4
    refine ⟨e1, e4, e2, e3, by simpa using e5, ?_⟩
    unfold KfOk
    rfl
  | cons g fs ih =>
    intro d p ks f k hf h e1 e2 e3 e4 e5
    have hlast : (match fs.getLast? with | none => ∀ x ∈ some g.i.pts, k.prevPts = x | some l => k.prevPts = l.i.pts) := by
      cases fs with
      | nil => simpa using e4
      | cons g' fs' => rw [List.getLast?_cons_cons] at e4; exact e4
    have hd : ∀ d', (fs.any (·.i.key) = false → d' + fs.length = k.delta) →
        k.delta = (if fs.any (·.i.key) then fs.length - keyIdx fs else d' + fs.length) := by
      intro d' hd'
      split
      · rename_i ha
        rw [e5, if_pos (by rw [List.any_cons, ha]; simp), keyIdx, if_pos ha]
        simp
      · rename_i ha
        rw [hd' (by simpa using ha)]
    rw [List.cons_append]
    rw [kfOk_cons] at h ⊢
    split
    · rename_i hk
      rw [if_pos hk] at h
      cases ks with
      | nil => exact h.elim
      | cons k' ks =>
        simp only [List.cons_append] at h ⊢
        obtain ⟨h1, h2, h3, h4, h5, h6⟩ := h
        refine ⟨h1, h2, h3, h4, h5, ih 1 _ ks f k hf h6 e1 e2 e3 hlast (hd 1 ?_)⟩
        intro ha
        rw [e5, if_pos (by rw [List.any_cons, hk]; simp), keyIdx, if_neg (by simp [ha])]
        simp; omega
    · rename_i hk
      rw [if_neg hk] at h
      refine ih (d + 1) _ ks f k hf h e1 e2 e3 hlast (hd (d + 1) ?_)
      intro ha
      rw [e5, if_neg (by rw [List.any_cons, ha]; simp [hk])]
      simp; omega

/-! ## Positions of key frames -/

/-- The positions that the distances stand for. -/
def kfPos : Nat → List Kf → List Nat
  | _, [] => []
  | c, k :: ks => (c + k.delta) :: kfPos (c + k.delta) ks

theorem kfPos_key : ∀ (fs : List Frame) (d c : Nat) (p : Option Int) (ks : List Kf), KfOk d p fs ks → ∀ m ∈ kfPos c ks,
    ∃ j f, m = c + d + j ∧ fs[j]? = some f ∧ f.i.key = true := by
  intro fs
  induction fs with
  | nil =>
    intro d c p ks h m hm
    unfold KfOk at h
    subst h
    simp [kfPos] at hm
  | cons f fs ih =>
    intro d c p ks h m hm
    unfold KfOk at h
    split at h
    · rename_i hk
      cases ks with
      | nil => exact h.elim
      | cons k ks =>
        simp only at h
        obtain ⟨h1, h2, h3, h4, h5, h6⟩ := h
        rw [kfPos, List.mem_cons] at hm
        rcases hm with rfl | hm
        · exact ⟨0, f, by omega, rfl, hk⟩
        · obtain ⟨j, f', e1, e2, e3⟩ := ih 1 (c + k.delta) _ ks h6 m hm
          exact ⟨j + 1, f', by omega, by simpa using e2, e3⟩
    · obtain ⟨j, f', e1, e2, e3⟩ := ih (d + 1) c _ ks h m hm
      exact ⟨j + 1, f', by omega, by simpa using e2, e3⟩

theorem kfIndexLoop_mem (target : Int) : ∀ (ks : List Kf) (cur index : Nat) (diff : Int),
    kfIndexLoop target ks cur index diff = index ∨ kfIndexLoop target ks cur index diff ∈ kfPos cur ks := by
  intro ks
  induction ks with
  | nil => intro cur index diff; exact .inl rfl
  | cons k ks ih =>
    intro cur index diff
    rw [kfIndexLoop, kfPos]
    by_cases h : absDiff k.prevPts target ≤ diff
    · simp only [if_pos h]
      by_cases hs : k.split
      · rw [if_pos hs]; right; simp
      · rw [if_neg hs]
        rcases ih (cur + k.delta) (cur + k.delta) (absDiff k.prevPts target) with h' | h'
        · rw [h']; right; simp
        · right; exact List.mem_cons_of_mem _ h'
    · simp only [if_neg h]
      by_cases hs : k.split
      · rw [if_pos hs]; left; trivial
      · rw [if_neg hs]
        rcases ih (cur + k.delta) index diff with h' | h'
        · left; exact h'
        · right; exact List.mem_cons_of_mem _ h'

theorem kfIndex_mem (target : Int) (ks : List Kf) : kfIndex target ks = 0 ∨ kfIndex target ks ∈ kfPos 0 ks := by
  cases ks with
  | nil => exact .inl rfl
  | cons k ks =>
    rw [kfIndex, kfPos]
    split
    · exact .inl rfl
    · right
      rcases kfIndexLoop_mem target ks k.delta k.delta (absDiff k.pts target) with h | h
      · rw [h]; simp
      · rw [Nat.zero_add]; exact List.mem_cons_of_mem _ h

theorem kfTruncLoop_mem (target : Int) : ∀ (ks : List Kf) (index : Nat),
    kfTruncLoop target ks index = index ∨ kfTruncLoop target ks index ∈ kfPos index ks := by
  intro ks
  induction ks with
  | nil => intro index; exact .inl rfl
  | cons k ks ih =>
    intro index
    rw [kfTruncLoop, kfPos]
    split
    · exact .inl rfl
    · rcases ih (index + k.delta) with h | h
      · rw [h]; right; simp
      · right; exact List.mem_cons_of_mem _ h

theorem kfTrunc_mem (target : Int) (ks : List Kf) : kfTrunc target ks = 0 ∨ kfTrunc target ks ∈ kfPos 0 ks := by
  cases ks with
  | nil => exact .inl rfl
  | cons k ks =>
    rw [kfTrunc, kfPos]
    split
    · exact .inl rfl
    · right
      rcases kfTruncLoop_mem target ks k.delta with h | h
      · rw [h]; simp
      · rw [Nat.zero_add]; exact List.mem_cons_of_mem _ h

/-! ## Indexes in the frame list -/

theorem getIndexLoop_le (target : Int) : ∀ (fs : List Frame) (cur index : Nat) (diff : Int), index ≤ cur →
    getIndexLoop target fs cur index diff ≤ cur + fs.length := by
  intro fs
  induction fs with
  | nil => intro cur index diff h; simpa [getIndexLoop] using h
  | cons f fs ih =>
    intro cur index diff h
    rw [getIndexLoop]
    split
    · simp; omega
    · dsimp only
      split
      · have := ih (cur + 1) (cur + 1) (absDiff f.i.pts target) (Nat.le_refl _)
        simp only [List.length_cons]; omega
      · have := ih (cur + 1) index diff (by omega)
        simp only [List.length_cons]; omega

theorem getIndex_le (target : Int) (fs : List Frame) : getIndex target fs ≤ fs.length := by
  cases fs with
  | nil => simp [getIndex]
  | cons f fs =>
    rw [getIndex]
    split
    · simp
    · have := getIndexLoop_le target fs 1 1 (absDiff f.i.pts target) (Nat.le_refl _)
      simp only [List.length_cons]; omega

theorem truncIndexLoop_le (target : Int) : ∀ (fs : List Frame) (index : Nat), truncIndexLoop target fs index ≤ index + fs.length := by
  intro fs
  induction fs with
  | nil => intro index; simp [truncIndexLoop]
  | cons f fs ih =>
    intro index
    rw [truncIndexLoop]
    split
    · simp
    · have := ih (index + 1)
      simp only [List.length_cons]; omega

theorem truncIndex_le (target : Int) (fs : List Frame) : truncIndex target fs ≤ fs.length := by
  cases fs with
  | nil => simp [truncIndex]
  | cons f fs =>
    rw [truncIndex]
    split
    · simp
    · have := truncIndexLoop_le target fs 1
      simp only [List.length_cons]; omega

theorem subIndexLoop_le (target : Int) : ∀ (fs : List Frame) (p : Option Int) (rm cp : Nat), rm ≤ cp →
    (subIndexLoop target fs p rm cp).1 ≤ (subIndexLoop target fs p rm cp).2 ∧ (subIndexLoop target fs p rm cp).2 ≤ cp + fs.length := by
  intro fs
  induction fs with
  | nil => intro p rm cp h; simpa [subIndexLoop] using h
  | cons f fs ih =>
    intro p rm cp h
    rw [subIndexLoop]
    split
    · simp; omega
    · have := ih (some f.i.dts) (if f.i.pts < target then rm + 1 else rm) (cp + 1) (by split <;> omega)
      simp only [List.length_cons]; omega

theorem subIndexes_le (target : Int) (fs : List Frame) :
    (subIndexes target fs).1 ≤ (subIndexes target fs).2 ∧ (subIndexes target fs).2 ≤ fs.length := by
  have := subIndexLoop_le target fs none 0 0 (Nat.le_refl _)
  rw [Nat.zero_add] at this
  exact this

end Verif.Segmenter
