import Verif.AmfProps

/-!
# Commands: the name of a message selects the handlers, the rest of it is passed on
-/

namespace Verif.Amf

open Verif.AmfSpec (Value Fields Values marker enc u16 takeItems Plain)

/-! ## Model of `ngx_rtmp_amf_message_handler`, nginx-rtmp-module/src/ngx_rtmp_receive.c 368-453 -/

/-- What comes of a message: the handlers for a name are called with a chain of buffers; `NGX_ERROR`; undefined behaviour; too many calls. -/
inductive Cmd where
  | call (name : Bytes) (args : List Bytes)
  | fail
  | ub
  | deep
deriving DecidableEq, Repr

/-- The static array `elts`, lines 379-398: the name is a string, of a shared object (16, 19) without a type byte. -/
def funcElt (type : Nat) : Elt := .mk tString (type = 19 ∨ type = 16) false [] (some 0) [] 128

/-- The static array `func` after `memset`, line 413, is the object 0. -/
def func0 : Mem := fun a => if a = 0 then List.replicate 128 0 else []

/-- The prefix of AMF3 messages (15, 16, 17) is skipped, lines 400-408. -/
def stripped (type : Nat) : List Bytes → Option (List Bytes)
  | [] => if type = 16 ∨ type = 15 ∨ type = 17 then none else some []
  | b :: bs => if (type = 16 ∨ type = 15 ∨ type = 17) ∧ 0 < b.length then some (b.drop 1 :: bs) else some (b :: bs)

/-- `ngx_tolower`. -/
def lower (b : UInt8) : UInt8 := if 65 ≤ b.toNat ∧ b.toNat ≤ 90 then b ||| 32 else b

/-- `ngx_rtmp_amf_message_handler`, lines 368-453, when there is room for `d` nested calls. Simplified: the handlers found in the hash are those
registered under the name (`ngx_hash` is taken to find what was put in), and their results are not followed. -/
def command (d type : Nat) (inp : List Bytes) : Cmd :=
  match stripped type inp with
  | none => .ub
  | some inp => match receive d [funcElt type] inp func0 with
    | .ok c m => match c.link with
      | [] => .ub
      | b :: bs => if 0 ∈ m 0 then .call (((m 0).takeWhile (· ≠ 0)).map lower) (b.drop c.off :: bs) else .ub
    | .stop _ _ => .fail
    | .err _ => .fail
    | .ub => .ub
    | .deep => .deep

/-! ## The memory is kept when a value is not wanted -/

def Keeps (m : Mem) : Out Bytes → Prop
  | .ok _ m' => m' = m
  | .stop _ m' => m' = m
  | _ => True

def RecKeeps (r : Option Elt → Bytes → Mem → Out Bytes) : Prop := ∀ s m, Keeps m (r none s m)

theorem objLoop_keeps {r : Option Elt → Bytes → Mem → Out Bytes} (hr : RecKeeps r) : ∀ f s m, Keeps m (objLoop flat r [] f s m) := by
  intro f
  induction f with
  | zero => intro s m; trivial
  | succ f ih =>
    intro s m
    simp only [objLoop]
    rcases flat_get s 2 with ⟨_, h⟩ | ⟨_, h⟩
    · rw [h]
      simp only []
      split
      · rcases flat_get (s.drop 2) 1 with ⟨_, h⟩ | ⟨_, h⟩
        · rw [h]
          simp only []
          split
          · exact rfl
          · trivial
        · rw [h]
          trivial
      · cases hn : readName flat (maxLen []) (be16 (s.take 2)) (s.drop 2) with
        | none => trivial
        | some x =>
          obtain ⟨name, s'⟩ := x
          simp only [show findName (be16 (s.take 2)) name [] = none from rfl]
          have := hr s' m
          cases hq : r none s' m with
          | ok s2 m2 =>
            rw [hq] at this
            have e : m2 = m := this
            subst e
            exact ih s2 m2
          | stop s2 m2 =>
            rw [hq] at this
            have e : m2 = m := this
            subst e
            exact ih s2 m2
          | err m2 => trivial
          | ub => trivial
          | deep => trivial
    · rw [h]
      exact rfl

theorem arrLoop_keeps {r : Option Elt → Bytes → Mem → Out Bytes} (hr : RecKeeps r) : ∀ k n s m, Keeps m (arrLoop r [] k n s m) := by
  intro k
  induction k with
  | zero => intro n s m; exact rfl
  | succ k ih =>
    intro n s m
    simp only [arrLoop, List.getElem?_nil]
    have := hr s m
    cases hq : r none s m with
    | ok s2 m2 =>
      rw [hq] at this
      have e : m2 = m := this
      subst e
      exact ih _ s2 m2
    | stop s2 m2 =>
      rw [hq] at this
      have e : m2 = m := this
      subst e
      exact ih _ s2 m2
    | err m2 => trivial
    | ub => trivial
    | deep => trivial

theorem fetch_keeps (s : Bytes) (m : Mem) (n : Nat) : Keeps m (fetch flat s m none n .ok) := by
  simp only [fetch, wrp]
  cases (flat.get s n).2 with
  | none => trivial
  | some s' => exact rfl

theorem fetchRev_keeps (s : Bytes) (m : Mem) (n : Nat) : Keeps m (fetchRev flat s m none n) := by
  simp only [fetchRev, wrp]
  rcases flat_get s n with ⟨_, h⟩ | ⟨_, h⟩ <;> rw [h] <;> simp [Keeps]

theorem ite_keeps {c : Prop} [Decidable c] {m : Mem} {x y : Out Bytes} (hx : c → Keeps m x) (hy : ¬ c → Keeps m y) : Keeps m (if c then x else y) := by
  by_cases h : c
  · rw [if_pos h]; exact hx h
  · rw [if_neg h]; exact hy h

theorem string_keeps (k : Nat) (s : Bytes) (m : Mem) : Keeps m (string flat none k s m) := by
  unfold string
  rcases flat_get s 2 with ⟨_, h⟩ | ⟨_, h⟩
  · rw [h]
    exact fetch_keeps _ m _
  · rw [h]
    trivial

theorem array_keeps {r : Option Elt → Bytes → Mem → Out Bytes} (hr : RecKeeps r) (s : Bytes) (m : Mem) : Keeps m (array flat r [] s m) := by
  unfold array
  rcases flat_get s 4 with ⟨_, h⟩ | ⟨_, h⟩
  · rw [h]
    exact arrLoop_keeps hr _ _ _ m
  · rw [h]
    trivial

theorem value_keeps {r : Option Elt → Bytes → Mem → Out Bytes} (hr : RecKeeps r) {type : Nat} (ht : type < 256) (len : Nat) (s : Bytes) (m : Mem) :
    Keeps m (value flat r type none [] len s m) := by
  unfold value
  refine ite_keeps (fun _ => fetchRev_keeps s m 8) (fun _ => ?_)
  refine ite_keeps (fun _ => fetch_keeps s m 1) (fun _ => ?_)
  refine ite_keeps (fun _ => string_keeps len s m) (fun _ => ?_)
  refine ite_keeps (fun _ => rfl) (fun _ => ?_)
  refine ite_keeps (fun _ => ?_) (fun _ => ?_)
  · rcases flat_get s 4 with ⟨_, h⟩ | ⟨_, h⟩
    · rw [h]
      exact objLoop_keeps hr _ _ m
    · rw [h]
      trivial
  refine ite_keeps (fun _ => objLoop_keeps hr _ s m) (fun _ => ?_)
  refine ite_keeps (fun _ => array_keeps hr s m) (fun _ => ?_)
  refine ite_keeps (fun h => ?_) (fun _ => ?_)
  · simp only [tVariant] at h
    omega
  refine ite_keeps (fun _ => fetch_keeps s m 1) (fun _ => ?_)
  refine ite_keeps (fun _ => fetchRev_keeps s m 2) (fun _ => ?_)
  refine ite_keeps (fun _ => fetchRev_keeps s m 4) (fun _ => ?_)
  exact ite_keeps (fun _ => rfl) (fun _ => trivial)

theorem byteOf_lt (b : Bytes) : byteOf b < 256 := by
  cases b with
  | nil => simp [byteOf]
  | cons x xs => exact x.toNat_lt

theorem one_keeps : ∀ d, RecKeeps (one flat d) := by
  intro d
  induction d with
  | zero => intro s m; trivial
  | succ d ih =>
    intro s m
    simp only [one, step]
    rcases flat_get s 1 with ⟨_, h⟩ | ⟨_, h⟩
    · rw [h]
      exact value_keeps ih (byteOf_lt _) _ _ m
    · rw [h]
      trivial

/-! ## The name is ended by NUL -/

theorem wr_nul {m m' : Mem} {a off : Nat} (h : wr m a off [0] = some m') : 0 ∈ m' a := by
  unfold wr at h
  split at h
  · simp only [Option.some.injEq] at h
    subst h
    simp
  · cases h

/-- The object `a` has a NUL after a success. -/
def Ends (a : Nat) : Out Bytes → Prop
  | .ok _ m => 0 ∈ m a
  | .stop _ m => 0 ∈ m a
  | _ => True

theorem string_nul (a k : Nat) (s : Bytes) (m : Mem) : Ends a (string flat (some a) k s m) := by
  unfold string
  rcases flat_get s 2 with ⟨_, h2⟩ | ⟨_, h2⟩
  · rw [h2]
    simp only [fetch]
    split
    · split
      · trivial
      · split
        · trivial
        · split
          · trivial
          · split
            · trivial
            · rename_i m1 h1
              simp only [wrp]
              split
              · trivial
              · exact wr_nul h1
    · split
      · trivial
      · split
        · trivial
        · rename_i m1 h1
          split
          · trivial
          · exact wr_nul h1
  · rw [h2]
    trivial

theorem func0_nul : 0 ∈ func0 0 := by simp [func0]

theorem value_nul (d : Nat) (s : Bytes) : Ends 0 (value flat (one flat d) tString (some 0) [] 128 s func0) := by
  have e : value flat (one flat d) tString (some 0) [] 128 s func0 = string flat (some 0) 128 s func0 := by
    simp [value, tNumber, tBoolean, tString]
  rw [e]
  exact string_nul 0 128 s func0

theorem ends_of_keeps {o : Out Bytes} (h : Keeps func0 o) : Ends 0 o := by
  cases o with
  | ok s m =>
    have e : m = func0 := h
    rw [e]
    exact func0_nul
  | stop s m =>
    have e : m = func0 := h
    rw [e]
    exact func0_nul
  | err m => trivial
  | ub => trivial
  | deep => trivial

theorem step_nul (d type : Nat) (s : Bytes) : Ends 0 (step flat (one flat d) (some (funcElt type)) s func0) := by
  cases ht : (funcElt type).typeless with
  | true =>
    simp only [step, ht, if_true]
    exact value_nul d s
  | false =>
    simp only [step, ht, Bool.false_eq_true, if_false]
    rcases flat_get s 1 with ⟨_, h2⟩ | ⟨_, h2⟩
    · rw [h2]
      simp only []
      cases hc : compat ((funcElt type).base % 256) (byteOf (s.take 1)) with
      | true =>
        have hb : byteOf (s.take 1) = tString := by
          rcases compat_cases hc with h | ⟨h | h, _⟩
          · exact h.symm
          · cases h
          · cases h
        rw [if_pos rfl, hb]
        exact value_nul d _
      | false =>
        rw [if_neg (by simp)]
        exact ends_of_keeps (value_keeps (one_keeps d) (byteOf_lt _) _ _ func0)
    · rw [h2]
      trivial

theorem read_nul {d type : Nat} {s s' : Bytes} {m' : Mem} (h : read flat d [funcElt type] s func0 = .ok s' m') : 0 ∈ m' 0 := by
  cases d with
  | zero => cases h
  | succ d =>
    simp only [read, loop] at h
    have key := step_nul d type s
    cases ho : step flat (one flat d) (some (funcElt type)) s func0 with
    | ok s2 m2 =>
      rw [ho] at h key
      simp only [Out.ok.injEq] at h
      rw [← h.2]
      exact key
    | stop s2 m2 =>
      rw [ho] at h key
      simp only [Out.ok.injEq] at h
      rw [← h.2]
      exact key
    | err m2 => rw [ho] at h; cases h
    | ub => rw [ho] at h; cases h
    | deep => rw [ho] at h; cases h

theorem funcElt_fit (type : Nat) : ∀ e ∈ [funcElt type], Fit func0 e := by
  intro e he
  simp only [List.mem_singleton] at he
  subst he
  refine .mk _ _ _ _ _ _ _ (fun a ha => ?_) (fun h => ?_) (fun e he => by cases he)
  · cases ha
    simp [room, tString, tNumber, tBoolean, func0]
  · simp [tString] at h

/-- The rest of a chain is passed on as a chain. -/
theorem rest_eq (b : Bytes) (bs : List Bytes) (off : Nat) : (b.drop off :: bs).flatten = Ctx.rest ⟨b :: bs, off⟩ := by
  simp [Ctx.rest]

/-! ## C69: commands -/

/-- What comes of a read of the name, in terms of the bytes. -/
theorem command_of_read {d type : Nat} {inp l : List Bytes} (hs : stripped type inp = some l) {rest : Bytes} {m : Mem}
    (h : seen (receive d [funcElt type] l func0) = .ok rest m) (hne : ∀ c m, receive d [funcElt type] l func0 = .ok c m → c.link ≠ []) :
    ∃ args, command d type inp = .call (((m 0).takeWhile (· ≠ 0)).map lower) args ∧ args.flatten = rest := by
  unfold command
  rw [hs]
  simp only []
  cases hr : receive d [funcElt type] l func0 with
  | ok c m' =>
    have hc := hne c m' hr
    rw [hr] at h
    simp only [seen, Out.ok.injEq] at h
    obtain ⟨h1, rfl⟩ := h
    have hf := receive_flat d [funcElt type] l func0
    rw [hr] at hf
    have hn := read_nul hf.symm
    obtain ⟨link, off⟩ := c
    cases link with
    | nil => exact absurd rfl hc
    | cons b bs =>
      simp only [hn, if_true]
      exact ⟨_, rfl, by rw [rest_eq]; exact h1⟩
  | stop c m' => rw [hr] at h; cases h
  | err m' => rw [hr] at h; cases h
  | ub => rw [hr] at h; cases h
  | deep => rw [hr] at h; cases h

/-! A position in a chain never runs off it. -/

theorem getLoop_inside : ∀ (l : List Bytes) (off n : Nat) (acc b : Bytes) (c : Ctx), getLoop l off n acc = (b, some c) → c.link ≠ [] := by
  intro l
  induction l with
  | nil => intro off n acc b c h; simp [getLoop] at h
  | cons x xs ih =>
    intro off n acc b c h
    simp only [getLoop] at h
    split at h
    · simp only [Prod.mk.injEq, Option.some.injEq] at h
      rw [← h.2]
      simp
    · exact ih _ _ _ _ _ h

theorem chain_inside : SrcRel (fun c s => At c s ∧ c.link ≠ []) chain flat := by
  refine ⟨fun c s n h => ?_, fun c s h => chain_flat.left c s h.1⟩
  rcases chain_flat.get c s n h.1 with h' | ⟨b, c', t', h1, h2, h3⟩
  · exact .inl h'
  · refine .inr ⟨b, c', t', h1, h2, h3, ?_⟩
    have e : ctxGet c n = (b, some c') := h1
    unfold ctxGet at e
    split at e
    · simp only [Prod.mk.injEq, Option.some.injEq] at e
      rw [← e.2]
      exact h.2
    · exact getLoop_inside _ _ _ _ _ _ e

theorem receive_inside {d : Nat} {es : List Elt} {inp : List Bytes} {m m' : Mem} {c : Ctx} (hin : inp ≠ []) (h : receive d es inp m = .ok c m') :
    c.link ≠ [] := by
  have := read_rel chain_inside d es m (s := ⟨inp, 0⟩) (t := inp.flatten) ⟨at_start inp, hin⟩
  unfold receive at h
  rw [h] at this
  cases hr : read flat d es inp.flatten m with
  | ok s m2 => rw [hr] at this; exact this.1.2
  | stop s m2 => rw [hr] at this; exact this.elim
  | err m2 => rw [hr] at this; exact this.elim
  | ub => rw [hr] at this; exact this.elim
  | deep => rw [hr] at this; exact this.elim

theorem stripped_some (type : Nat) {inp : List Bytes} (h : inp ≠ []) : ∃ l, stripped type inp = some l ∧ l ≠ [] := by
  cases inp with
  | nil => exact absurd rfl h
  | cons b bs =>
    simp only [stripped]
    split
    · exact ⟨_, rfl, by simp⟩
    · exact ⟨_, rfl, by simp⟩

/-- **C68, commands.** Whatever the bytes of a message are, taking its name never leaves the name buffer, and never runs off the message. -/
theorem commands_are_read_safely (d type : Nat) (inp : List Bytes) (hin : inp ≠ []) : command d type inp ≠ .ub := by
  obtain ⟨l, hl, hne⟩ := stripped_some type hin
  have hsafe := reading_is_safe d [funcElt type] l func0 (funcElt_fit type)
  cases hr : receive d [funcElt type] l func0 with
  | ok c m =>
    have hs : seen (receive d [funcElt type] l func0) = .ok c.rest m := by rw [hr]; rfl
    obtain ⟨args, h, _⟩ := command_of_read hl hs (fun c m h => receive_inside hne h)
    rw [h]
    simp
  | stop c m => unfold command; simp [hl, hr]
  | err m => unfold command; simp [hl, hr]
  | ub => rw [hr] at hsafe; exact hsafe.elim
  | deep => unfold command; simp [hl, hr]

/-- **C69, commands.** A message that has, after the prefix byte of AMF3, the name of a command as a string (without a type byte for shared
objects), and then other bytes: the handlers of the name, in lower case, get exactly these other bytes. -/
theorem commands_reach_their_handlers (d type : Nat) (inp : List Bytes) (pre name args : Bytes) (hin : inp ≠ [])
    (hpre : (type = 15 ∨ type = 16 ∨ type = 17) → pre.length = 1 ∧ 0 < (inp.headD []).length) (hpre' : ¬ (type = 15 ∨ type = 16 ∨ type = 17) → pre = [])
    (hb : inp.flatten = pre ++ ((if type = 16 ∨ type = 19 then [] else [2]) ++ (u16 name.length ++ name ++ args)))
    (hn : name.length < 128) (h0 : 0 ∉ name) (hd : 1 < d) :
    ∃ rest, command d type inp = .call (name.map lower) rest ∧ rest.flatten = args := by
  obtain ⟨l, hl, hne⟩ := stripped_some type hin
  have hlf : l.flatten = (if type = 16 ∨ type = 19 then [] else [2]) ++ (u16 name.length ++ name ++ args) := by
    cases inp with
    | nil => exact absurd rfl hin
    | cons b bs =>
      by_cases ht : type = 15 ∨ type = 16 ∨ type = 17
      · obtain ⟨h1, h2⟩ := hpre ht
        simp only [List.headD_cons] at h2
        simp only [stripped] at hl
        rw [if_pos ⟨by omega, h2⟩] at hl
        simp only [Option.some.injEq] at hl
        rw [← hl]
        match b, h2 with
        | x :: xs, _ =>
          match pre, h1 with
          | [y], _ =>
            simp only [List.flatten_cons, List.cons_append, List.cons.injEq, List.nil_append] at hb
            simpa using hb.2
      · have hp := hpre' ht
        subst hp
        simp only [stripped] at hl
        rw [if_neg (by omega)] at hl
        simp only [Option.some.injEq] at hl
        rw [← hl]
        simpa using hb
  obtain ⟨d, rfl⟩ : ∃ k, d = k + 2 := ⟨d - 2, by omega⟩
  have hstr : string flat (some 0) 128 (u16 name.length ++ name ++ args) func0 = .ok args (AmfSpec.placep func0 (some 0) (name.take 127 ++ [0])) :=
    string_reads name args (by omega) (fun a ha => by cases ha; simp [func0])
  have hval : value flat (one flat (d + 1)) tString (some 0) [] 128 (u16 name.length ++ name ++ args) func0 =
      .ok args (AmfSpec.placep func0 (some 0) (name.take 127 ++ [0])) := by
    rw [← hstr]
    simp [value, tNumber, tBoolean, tString]
  have hread : seen (receive (d + 2) [funcElt type] l func0) = .ok args (AmfSpec.placep func0 (some 0) (name.take 127 ++ [0])) := by
    rw [receive_flat, hlf]
    have hstep : step flat (one flat (d + 1)) (some (funcElt type)) ((if type = 16 ∨ type = 19 then [] else [2]) ++ (u16 name.length ++ name ++ args)) func0 =
        .ok args (AmfSpec.placep func0 (some 0) (name.take 127 ++ [0])) := by
      by_cases ht : type = 16 ∨ type = 19
      · have htl : (funcElt type).typeless = true := by simp only [funcElt, Elt.typeless, decide_eq_true_eq]; omega
        rw [if_pos ht, List.nil_append]
        simp only [step, htl, if_true]
        exact hval
      · have htl : (funcElt type).typeless = false := by simp only [funcElt, Elt.typeless, decide_eq_false_iff_not]; omega
        rw [if_neg ht]
        simp only [step, htl, Bool.false_eq_true, if_false]
        rw [get_app (n := 1) [2] _ rfl]
        exact hval
    simp only [read, loop, hstep]
  obtain ⟨rest, h1, h2⟩ := command_of_read hl hread (fun c m h => receive_inside hne h)
  refine ⟨rest, ?_, h2⟩
  rw [h1]
  congr 2
  have e : AmfSpec.placep func0 (some 0) (name.take 127 ++ [0]) 0 = name ++ (0 :: (func0 0).drop (name.length + 1)) := by
    have : name.take 127 = name := List.take_of_length_le (by omega)
    simp [AmfSpec.placep, AmfSpec.place, this]
  rw [e, List.takeWhile_append_of_pos (fun x hx => by
    have : x ≠ 0 := fun h => h0 (h ▸ hx)
    simpa using this)]
  simp

/-! ## C70: commands -/

/-- The full claim of C70: there is a number of nested calls that is enough for the name of every command. -/
def DepthBounded : Prop := ∃ d, ∀ inp : List Bytes, command d 20 inp ≠ .deep

/-- **C70 is false.** -/
theorem not_depth_bounded : ¬ DepthBounded := by
  rintro ⟨d, h⟩
  have hd := (reading_depth_is_not_bounded d (funcElt 20) [] [nested d] func0 rfl (by simp [funcElt, Elt.base, tString]) (by simp)).2
  apply h [nested d]
  have hr : receive d [funcElt 20] [nested d] func0 = .deep := by
    cases hr : receive d [funcElt 20] [nested d] func0 <;> rw [hr] at hd <;> simp [seen] at hd
  unfold command
  simp [stripped, hr]

/-- **C70, in part.** With room for more calls than the message has bytes no command is too deep. -/
theorem command_depth_is_below_the_length_partial (d type : Nat) (inp : List Bytes) (hin : inp ≠ []) (hd : inp.flatten.length < d) :
    command d type inp ≠ .deep := by
  obtain ⟨l, hl, _⟩ := stripped_some type hin
  have hlen : l.flatten.length ≤ inp.flatten.length := by
    cases inp with
    | nil => exact absurd rfl hin
    | cons b bs =>
      simp only [stripped] at hl
      split at hl
      · simp only [Option.some.injEq] at hl
        rw [← hl]
        simp only [List.flatten_cons, List.length_append, List.length_drop]
        omega
      · simp only [Option.some.injEq] at hl
        rw [← hl]
        exact Nat.le_refl _
  have hn := reading_depth_is_below_the_length_partial d [funcElt type] l func0 (funcElt_fit type) (by omega)
  unfold command
  rw [hl]
  simp only []
  cases hr : receive d [funcElt type] l func0 with
  | ok c m =>
    simp only []
    cases c.link with
    | nil => simp
    | cons b bs =>
      simp only []
      split <;> simp
  | stop c m => simp
  | err m => simp
  | ub => simp
  | deep =>
    rw [hr] at hn
    exact absurd rfl hn

end Verif.Amf
