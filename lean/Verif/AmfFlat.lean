import Verif.Amf

/-!
# AMF0: the reader does not depend on how the message is cut into buffers

Two sources that give the same bytes make the reader do the same; the chain of buffers gives the same bytes as their concatenation.
-/

namespace Verif.Amf

variable {σ τ : Type}

/-- Two outcomes that differ in the representation of the source only. -/
def OutRel (R : σ → τ → Prop) : Out σ → Out τ → Prop
  | .ok s m, .ok t m' => R s t ∧ m = m'
  | .stop s m, .stop t m' => R s t ∧ m = m'
  | .err m, .err m' => m = m'
  | .ub, .ub => True
  | .deep, .deep => True
  | _, _ => False

/-- Two sources that give the same bytes. -/
structure SrcRel (R : σ → τ → Prop) (S : Src σ) (T : Src τ) : Prop where
  get : ∀ s t n, R s t → (∃ b, S.get s n = (b, none) ∧ T.get t n = (b, none)) ∨
    ∃ b s' t', S.get s n = (b, some s') ∧ T.get t n = (b, some t') ∧ R s' t'
  left : ∀ s t, R s t → S.left s = T.left t

variable {R : σ → τ → Prop} {S : Src σ} {T : Src τ}

theorem fetch_rel (h : SrcRel R S T) {s : σ} {t : τ} (hr : R s t) (m : Mem) (p : Option Nat) (n : Nat) {k : σ → Mem → Out σ}
    {k' : τ → Mem → Out τ} (hk : ∀ s t m, R s t → OutRel R (k s m) (k' t m)) : OutRel R (fetch S s m p n k) (fetch T t m p n k') := by
  unfold fetch
  rcases h.get s t n hr with ⟨b, e1, e2⟩ | ⟨b, s', t', e1, e2, hr'⟩
  · rw [e1, e2]
    simp only []
    cases wrp m p 0 b <;> simp [OutRel]
  · rw [e1, e2]
    simp only []
    cases wrp m p 0 b with
    | none => simp [OutRel]
    | some m' => exact hk _ _ _ hr'

theorem ok_rel {s : σ} {t : τ} (m : Mem) (hr : R s t) : OutRel R (.ok s m) (.ok t m) := ⟨hr, rfl⟩

theorem fetchRev_rel (h : SrcRel R S T) {s : σ} {t : τ} (hr : R s t) (m : Mem) (p : Option Nat) (n : Nat) :
    OutRel R (fetchRev S s m p n) (fetchRev T t m p n) := by
  unfold fetchRev
  rcases h.get s t n hr with ⟨b, e1, e2⟩ | ⟨b, s', t', e1, e2, hr'⟩
  · rw [e1, e2]
    simp [OutRel]
  · rw [e1, e2]
    simp only []
    cases wrp m p 0 b.reverse <;> simp [OutRel, hr']

theorem string_rel (h : SrcRel R S T) {s : σ} {t : τ} (hr : R s t) (m : Mem) (p : Option Nat) (n : Nat) :
    OutRel R (string S p n s m) (string T p n t m) := by
  unfold string
  rcases h.get s t 2 hr with ⟨b, e1, e2⟩ | ⟨b, s', t', e1, e2, hr'⟩
  · rw [e1, e2]
    simp [OutRel]
  · rw [e1, e2]
    simp only []
    cases p with
    | none => exact fetch_rel h hr' m none _ (fun _ _ m hr => ok_rel m hr)
    | some a =>
      simp only []
      split
      · split
        · trivial
        · refine fetch_rel h hr' m (some a) _ ?_
          intro s t m hr
          cases wr m a (n - 1) [0] with
          | none => trivial
          | some m' => exact fetch_rel h hr m' none _ (fun _ _ m hr => ok_rel m hr)
      · rcases h.get s' t' (be16 b) hr' with ⟨c, f1, f2⟩ | ⟨c, s2, t2, f1, f2, hr2⟩
        · rw [f1, f2]
          simp only []
          cases wr m a 0 c with
          | none => trivial
          | some m1 =>
            simp only []
            cases wr m1 a (be16 b) [0] <;> simp [OutRel]
        · rw [f1, f2]
          simp only []
          cases wr m a 0 c with
          | none => trivial
          | some m1 =>
            simp only []
            cases wr m1 a (be16 b) [0] <;> simp [OutRel, hr2]

theorem readName_rel (h : SrcRel R S T) {s : σ} {t : τ} (hr : R s t) (k n : Nat) :
    (readName S k n s = none ∧ readName T k n t = none) ∨
      ∃ b s' t', readName S k n s = some (b, s') ∧ readName T k n t = some (b, t') ∧ R s' t' := by
  unfold readName
  split
  · rcases h.get s t n hr with ⟨b, e1, e2⟩ | ⟨b, s', t', e1, e2, hr'⟩
    · rw [e1, e2]
      exact .inl ⟨rfl, rfl⟩
    · rw [e1, e2]
      exact .inr ⟨b, s', t', rfl, rfl, hr'⟩
  · rcases h.get s t k hr with ⟨b, e1, e2⟩ | ⟨b, s', t', e1, e2, hr'⟩
    · rw [e1, e2]
      exact .inl ⟨rfl, rfl⟩
    · rw [e1, e2]
      simp only []
      rcases h.get s' t' (n - k) hr' with ⟨c, f1, f2⟩ | ⟨c, s2, t2, f1, f2, hr2⟩
      · rw [f1, f2]
        exact .inl ⟨rfl, rfl⟩
      · rw [f1, f2]
        exact .inr ⟨b, s2, t2, rfl, rfl, hr2⟩

/-- The same for the nested calls. -/
def RecRel (R : σ → τ → Prop) (r : Option Elt → σ → Mem → Out σ) (r' : Option Elt → τ → Mem → Out τ) : Prop :=
  ∀ e s t m, R s t → OutRel R (r e s m) (r' e t m)

theorem objLoop_rel (h : SrcRel R S T) {r : Option Elt → σ → Mem → Out σ} {r' : Option Elt → τ → Mem → Out τ} (hrec : RecRel R r r')
    (es : List Elt) : ∀ f s t m, R s t → OutRel R (objLoop S r es f s m) (objLoop T r' es f t m) := by
  intro f
  induction f with
  | zero => intros; trivial
  | succ f ih =>
    intro s t m hr
    simp only [objLoop]
    rcases h.get s t 2 hr with ⟨b, e1, e2⟩ | ⟨b, s', t', e1, e2, hr'⟩
    · rw [e1, e2]
      exact ⟨hr, rfl⟩
    · rw [e1, e2]
      simp only []
      split
      · rcases h.get s' t' 1 hr' with ⟨c, f1, f2⟩ | ⟨c, s2, t2, f1, f2, hr2⟩
        · rw [f1, f2]
          simp [OutRel]
        · rw [f1, f2]
          simp only []
          split <;> simp [OutRel, hr2]
      · rcases readName_rel h hr' (maxLen es) (be16 b) with ⟨f1, f2⟩ | ⟨c, s2, t2, f1, f2, hr2⟩
        · rw [f1, f2]
          simp [OutRel]
        · rw [f1, f2]
          simp only []
          have := hrec (findName (be16 b) c es) s2 t2 m hr2
          revert this
          cases r (findName (be16 b) c es) s2 m <;> cases r' (findName (be16 b) c es) t2 m <;> simp only [OutRel, false_imp_iff, forall_const] <;>
            intro q
          · obtain ⟨q1, rfl⟩ := q
            exact ih _ _ _ q1
          · obtain ⟨q1, rfl⟩ := q
            exact ih _ _ _ q1
          · exact q

theorem arrLoop_rel {r : Option Elt → σ → Mem → Out σ} {r' : Option Elt → τ → Mem → Out τ} (hrec : RecRel R r r')
    (es : List Elt) : ∀ f n s t m, R s t → OutRel R (arrLoop r es f n s m) (arrLoop r' es f n t m) := by
  intro f
  induction f with
  | zero =>
    intro n s t m hr
    exact ⟨hr, rfl⟩
  | succ f ih =>
    intro n s t m hr
    simp only [arrLoop]
    have := hrec es[n]? s t m hr
    revert this
    cases r es[n]? s m <;> cases r' es[n]? t m <;> simp only [OutRel, false_imp_iff, forall_const] <;> intro q
    · obtain ⟨q1, rfl⟩ := q
      exact ih _ _ _ _ q1
    · obtain ⟨q1, rfl⟩ := q
      exact ih _ _ _ _ q1
    · exact q

theorem value_rel (h : SrcRel R S T) {r : Option Elt → σ → Mem → Out σ} {r' : Option Elt → τ → Mem → Out τ} (hrec : RecRel R r r')
    (type : Nat) (p : Option Nat) (sub : List Elt) (len : Nat) {s : σ} {t : τ} (m : Mem) (hr : R s t) :
    OutRel R (value S r type p sub len s m) (value T r' type p sub len t m) := by
  have hobj : ∀ s t, R s t → OutRel R (object S r sub s m) (object T r' sub t m) := by
    intro s t hr
    unfold object
    rw [h.left s t hr]
    exact objLoop_rel h hrec sub _ _ _ _ hr
  unfold value
  by_cases h0 : type = tNumber
  · simp only [if_pos h0]
    exact fetchRev_rel h hr m p 8
  by_cases h1 : type = tBoolean
  · simp only [if_neg h0, if_pos h1]
    exact fetch_rel h hr m p 1 (fun _ _ m hr => ok_rel m hr)
  by_cases h2 : type = tString
  · simp only [if_neg h0, if_neg h1, if_pos h2]
    exact string_rel h hr m p len
  by_cases h3 : type = tNull ∨ type = tArrayNull
  · simp only [if_neg h0, if_neg h1, if_neg h2, if_pos h3]
    exact ok_rel m hr
  by_cases h4 : type = tMixed
  · simp only [if_neg h0, if_neg h1, if_neg h2, if_neg h3, if_pos h4]
    rcases h.get s t 4 hr with ⟨b, e1, e2⟩ | ⟨b, s', t', e1, e2, hr'⟩
    · rw [e1, e2]
      simp [OutRel]
    · rw [e1, e2]
      exact hobj _ _ hr'
  by_cases h5 : type = tObject
  · simp only [if_neg h0, if_neg h1, if_neg h2, if_neg h3, if_neg h4, if_pos h5]
    exact hobj _ _ hr
  by_cases h6 : type = tArray
  · simp only [if_neg h0, if_neg h1, if_neg h2, if_neg h3, if_neg h4, if_neg h5, if_pos h6]
    unfold array
    rcases h.get s t 4 hr with ⟨b, e1, e2⟩ | ⟨b, s', t', e1, e2, hr'⟩
    · rw [e1, e2]
      simp [OutRel]
    · rw [e1, e2]
      exact arrLoop_rel hrec sub _ _ _ _ _ hr'
  by_cases h7 : type = tVariant
  · simp only [if_neg h0, if_neg h1, if_neg h2, if_neg h3, if_neg h4, if_neg h5, if_neg h6, if_pos h7]
    unfold variant
    rcases h.get s t 1 hr with ⟨b, e1, e2⟩ | ⟨b, s', t', e1, e2, hr'⟩
    · rw [e1, e2]
      simp [OutRel]
    · rw [e1, e2]
      simp only []
      cases alternative (byteOf b) sub with
      | none => exact hrec _ _ _ _ hr'
      | some e => exact hrec _ _ _ _ hr'
  simp only [if_neg h0, if_neg h1, if_neg h2, if_neg h3, if_neg h4, if_neg h5, if_neg h6, if_neg h7]
  split
  · exact fetch_rel h hr m p 1 (fun _ _ m hr => ok_rel m hr)
  split
  · exact fetchRev_rel h hr m p 2
  split
  · exact fetchRev_rel h hr m p 4
  split
  · exact ⟨hr, rfl⟩
  · rfl

theorem step_rel (h : SrcRel R S T) {r : Option Elt → σ → Mem → Out σ} {r' : Option Elt → τ → Mem → Out τ} (hrec : RecRel R r r') :
    RecRel R (step S r) (step T r') := by
  intro e s t m hr
  unfold step
  cases e with
  | none =>
    simp only []
    rcases h.get s t 1 hr with ⟨b, e1, e2⟩ | ⟨b, s', t', e1, e2, hr'⟩
    · rw [e1, e2]
      simp [OutRel]
    · rw [e1, e2]
      exact value_rel h hrec _ _ _ _ m hr'
  | some e =>
    simp only []
    split
    · split
      · rfl
      · exact value_rel h hrec _ _ _ _ m hr
    · rcases h.get s t 1 hr with ⟨b, e1, e2⟩ | ⟨b, s', t', e1, e2, hr'⟩
      · rw [e1, e2]
        simp only []
        split
        · exact ⟨hr, rfl⟩
        · rfl
      · rw [e1, e2]
        simp only []
        split
        · exact value_rel h hrec _ _ _ _ m hr'
        · exact value_rel h hrec _ _ _ _ m hr'

theorem one_rel (h : SrcRel R S T) : ∀ d, RecRel R (one S d) (one T d) := by
  intro d
  induction d with
  | zero =>
    intro e s t m hr
    trivial
  | succ d ih => exact step_rel h ih

theorem loop_rel (h : SrcRel R S T) {r : Option Elt → σ → Mem → Out σ} {r' : Option Elt → τ → Mem → Out τ} (hrec : RecRel R r r') :
    ∀ es s t m, R s t → OutRel R (loop S r es s m) (loop T r' es t m) := by
  intro es
  induction es with
  | nil =>
    intro s t m hr
    exact ⟨hr, rfl⟩
  | cons e es ih =>
    intro s t m hr
    simp only [loop]
    have := step_rel h hrec (some e) s t m hr
    revert this
    cases step S r (some e) s m <;> cases step T r' (some e) t m <;> simp only [OutRel, false_imp_iff, forall_const] <;> intro q
    · obtain ⟨q1, rfl⟩ := q
      exact ih _ _ _ q1
    · exact q
    · exact q

theorem read_rel (h : SrcRel R S T) (d : Nat) (es : List Elt) {s : σ} {t : τ} (m : Mem) (hr : R s t) :
    OutRel R (read S d es s m) (read T d es t m) := by
  cases d with
  | zero => trivial
  | succ d => exact loop_rel h (one_rel h d) es s t m hr

/-! ## The chain of buffers -/

/-- A position in a chain is the rest of the message. -/
def At (c : Ctx) (s : Bytes) : Prop := c.rest = s ∧ ∀ b ∈ c.link.head?, c.off ≤ b.length

theorem getLoop_flat : ∀ (l : List Bytes) (off n : Nat) (acc : Bytes), (∀ b ∈ l.head?, off ≤ b.length) →
    (n ≤ (Ctx.rest ⟨l, off⟩).length → 0 < n → ∃ c, getLoop l off n acc = (acc ++ (Ctx.rest ⟨l, off⟩).take n, some c) ∧
      At c ((Ctx.rest ⟨l, off⟩).drop n)) ∧
    ((Ctx.rest ⟨l, off⟩).length < n → getLoop l off n acc = (acc ++ Ctx.rest ⟨l, off⟩, none)) := by
  intro l
  induction l with
  | nil =>
    intro off n acc _
    refine ⟨fun h h0 => ?_, fun _ => by simp [getLoop, Ctx.rest]⟩
    simp [Ctx.rest] at h
    omega
  | cons b bs ih =>
    intro off n acc hoff
    have hb : off ≤ b.length := hoff b (by simp)
    have hrest : (Ctx.rest ⟨b :: bs, off⟩) = b.drop off ++ bs.flatten := rfl
    have hnext : (Ctx.rest ⟨bs, 0⟩) = bs.flatten := by
      cases bs with
      | nil => rfl
      | cons x xs => simp [Ctx.rest]
    have hi := ih 0 (n - (b.length - off)) (acc ++ b.drop off) (fun x _ => Nat.zero_le _)
    rw [hnext] at hi
    rw [hrest]
    by_cases hn : off + n ≤ b.length
    · refine ⟨fun _ _ => ⟨⟨b :: bs, off + n⟩, ?_, ?_, ?_⟩, fun h => ?_⟩
      · simp only [getLoop, if_pos hn]
        rw [List.take_append_of_le_length (by rw [List.length_drop]; omega)]
      · show b.drop (off + n) ++ bs.flatten = _
        rw [List.drop_append_of_le_length (by rw [List.length_drop]; omega), List.drop_drop]
      · intro x hx
        simp only [List.head?_cons, Option.mem_def, Option.some.injEq] at hx
        subst hx
        exact hn
      · rw [List.length_append, List.length_drop] at h
        omega
    · refine ⟨fun h h0 => ?_, fun h => ?_⟩
      · rw [List.length_append, List.length_drop] at h
        obtain ⟨c, h1, h2⟩ := hi.1 (by omega) (by omega)
        refine ⟨c, ?_, ?_⟩
        · simp only [getLoop, if_neg hn]
          rw [h1, List.take_append, List.length_drop, List.take_of_length_le (l := b.drop off) (by rw [List.length_drop]; omega),
            List.append_assoc]
        · rw [List.drop_append, List.length_drop, List.drop_of_length_le (l := b.drop off) (by rw [List.length_drop]; omega), List.nil_append]
          exact h2
      · rw [List.length_append, List.length_drop] at h
        simp only [getLoop, if_neg hn]
        rw [hi.2 (by omega), List.append_assoc]

theorem chain_flat : SrcRel At chain flat := by
  refine ⟨?_, ?_⟩
  · intro c s n hr
    show (∃ b, ctxGet c n = (b, none) ∧ _) ∨ _
    simp only [chain, flat]
    obtain ⟨l, off⟩ := c
    obtain ⟨he, ho⟩ := hr
    subst he
    by_cases h0 : n = 0
    · subst h0
      refine .inr ⟨[], ⟨l, off⟩, _, ?_, ?_, rfl, ho⟩
      · simp [ctxGet]
      · simp
    · have := getLoop_flat l off n [] ho
      simp only [List.nil_append] at this
      by_cases hn : n ≤ (Ctx.rest ⟨l, off⟩).length
      · obtain ⟨c, h1, h2⟩ := this.1 hn (by omega)
        refine .inr ⟨(Ctx.rest ⟨l, off⟩).take n, c, (Ctx.rest ⟨l, off⟩).drop n, ?_, ?_, h2⟩
        · rw [ctxGet, if_neg h0, h1]
        · rw [if_pos hn]
      · refine .inl ⟨Ctx.rest ⟨l, off⟩, ?_, ?_⟩
        · rw [ctxGet, if_neg h0, this.2 (by omega)]
        · rw [if_neg hn]
  · intro c s hr
    simp [chain, flat, hr.1]

theorem at_start (inp : List Bytes) : At ⟨inp, 0⟩ inp.flatten := by
  refine ⟨?_, fun b _ => Nat.zero_le _⟩
  cases inp with
  | nil => rfl
  | cons b bs => simp [Ctx.rest]

end Verif.Amf
