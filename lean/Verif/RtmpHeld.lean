import Verif.RtmpDeliver

/-!
# RTMP: the data of messages that are not complete

C67. The full claim, `Bounded`, is that a chunk stream never holds more than the size of messages that is allowed. It is false,
RtmpCases.lean: a header in the middle of a message can make it shorter than what was received of it, and then it never ends. It is
proved here for the senders of C65.
-/

namespace Verif.Rtmp

open Verif.RtmpSpec

/-- The bytes that a chunk stream holds. -/
def held : List Link → Nat
  | [] => 0
  | l :: ls => (l.last - l.pos) + held ls

/-- The full claim. -/
def Bounded : Prop := ∀ (g : Cfg) (H : Handler) (t3 : T3) (bytes : List UInt8) (s : Sess), Run g H (newSess g t3) bytes s →
  ∀ (c : Nat) (st : Strm), 2 ≤ c → s.streams[c]? = some st → held st.chain ≤ g.maxMessage

theorem held_read {s : Sess} : ∀ {ls : List Link} {ds : List (List UInt8)}, s.rdAll ls = .ok ds → held ls = ds.flatten.length := by
  intro ls
  induction ls with
  | nil => intro ds h; cases h; rfl
  | cons l ls ih =>
    intro ds h
    obtain ⟨d, ds', rfl, h1, h2⟩ := rdAll_cons h
    rw [held, ih h2, List.flatten_cons, List.length_append, rd_len h1]

theorem reads_first {g : Cfg} {H : Handler} {X Y : AM} {a b : List UInt8} (h : Reads g H X a Y b) {Z : AM} {m : Nat} (e : X.step g H a = .ok (Z, m)) :
    (X = Y ∧ a = b) ∨ Reads g H Z (a.drop m) Y b := by
  induction h with
  | refl => exact Or.inl ⟨rfl, rfl⟩
  | step h1 e1 ih1 =>
    rcases ih1 with ⟨rfl, rfl⟩ | h3
    · rw [e] at e1
      cases e1
      exact Or.inr .refl
    · exact Or.inr (.step h3 e1)

/-- Every state on the way belongs to a state of the sender. -/
theorem stream_way {g : Cfg} {F : List Mess → Option (List Nat)} {T : Terms} {t3 : T3} {bs : List UInt8} {S : Sender} (hm : ModeOk T t3)
    (hz : T.zero = false) (h : Stream F T g.maxStreams g.maxMessage bs S) :
    ∃ A, Sim g T S A ∧ ∀ y B pend, Reads g (flatH F) (newAM g t3) (bs ++ y) B pend → (∃ S', Sim g T S' B) ∨ Reads g (flatH F) A y B pend := by
  induction h with
  | init => exact ⟨_, new_sim g hm, fun y B pend h => Or.inr h⟩
  | chunk hst hx ih =>
    rename_i bs x S S'
    obtain ⟨A, h1, h2⟩ := ih
    obtain ⟨A', h3, h4⟩ := sends_step h1 hz hx []
    refine ⟨A', h4, ?_⟩
    intro y B pend hr
    rw [List.append_assoc] at hr
    rcases h2 (x ++ y) B pend hr with h | h
    · exact Or.inl h
    · obtain ⟨A2, h5, h6⟩ := sends_step h1 hz hx y
      have h3' : A.step g (flatH F) x = .ok (A', x.length) := by simpa using h3
      have : A2 = A' := by
        have := step_app (g := g) (H := flatH F) (A := A) (bs := x) (by rw [h3']; simp) y
        rw [h5, h3'] at this
        cases this
        rfl
      subst this
      rcases reads_first h h5 with ⟨rfl, _⟩ | h7
      · exact Or.inl ⟨S, h1⟩
      · rw [List.drop_left] at h7
        exact Or.inr h7

theorem sim_held {g : Cfg} {T : Terms} {S : Sender} {A : AM} (h : Sim g T S A) {c : Nat} {a : AStrm} (hc : 2 ≤ c) (ha : A.streams[c]? = some a) :
    a.frags.flatten.length ≤ g.maxMessage := by
  have hl := h.lanes c a hc ha
  cases hcur : (S.lanes c).cur with
  | none => rw [(hl.idle hcur).2.1]; simp
  | some x =>
    obtain ⟨m, rest⟩ := x
    obtain ⟨_, _, _, _, h5, h6⟩ := hl.busy m rest hcur
    cases hp : (S.lanes c).prev with
    | none => rw [hl.fresh hp] at hcur; cases hcur
    | some p =>
      have h7 := (h6 p hp).2.2.2.2
      have h8 := (h.lens c p hp).2
      rw [h5, List.length_append] at h7
      omega

theorem match_held {s : Sess} {A : AM} {n c : Nat} {st : Strm} (hm : Match s A) (ha : ∀ a, A.streams[c]? = some a → a.frags.flatten.length ≤ n)
    (hst : s.streams[c]? = some st) : held st.chain ≤ n := by
  obtain ⟨a, hc⟩ : ∃ a, A.streams[c]? = some a := by
    have := (List.getElem?_eq_some_iff.1 hst).1
    exact ⟨_, List.getElem?_eq_getElem (by rw [datas_len hm.datas]; exact this)⟩
  obtain ⟨st', h1, _, h3⟩ := datas_get hm.datas hc
  rw [hst] at h1
  cases h1
  rw [held_read h3]
  exact ha a hc

/-- A chunk stream holds less than the size of messages that is allowed. -/
theorem held_bounded_partial {g : Cfg} {F : List Mess → Option (List Nat)} {T : Terms} {t3 : T3} {bytes more : List UInt8} {S : Sender} {s : Sess} (hm : ModeOk T t3)
    (hz : T.zero = false) (h : Stream F T g.maxStreams g.maxMessage (bytes ++ more) S) (hr : Run g (flatH F) (newSess g t3) bytes s) {c : Nat} {st : Strm}
    (hc : 2 ≤ c) (hst : s.streams[c]? = some st) : held st.chain ≤ g.maxMessage := by
  obtain ⟨A, h1, h2⟩ := stream_way hm hz h
  obtain ⟨B, pend, r1, r2⟩ := run_rel hr
  have hS : ∃ S', Sim g T S' B := by
    rcases h2 [] B (pend ++ more) (by rw [List.append_nil]; exact reads_app r1 more) with h | h
    · exact h
    · have : A.step g (flatH F) [] = .more := by
        refine step_of_more _ ?_
        unfold AM.head
        rfl
      have e := (reads_stuck h (by rw [this]; simp)).1
      exact ⟨S, by rw [e]; exact h1⟩
  obtain ⟨S', hS⟩ := hS
  have hB : ∀ a, B.streams[c]? = some a → a.frags.flatten.length ≤ g.maxMessage := fun a ha => sim_held hS hc ha
  have hset : ∀ (k : Nat) (a : AStrm) (h' : Hdr), B.streams[k]? = some a → ∀ a', (B.streams.set k { a with h := h' })[c]? = some a' →
      a'.frags.flatten.length ≤ g.maxMessage := by
    intro k a h' ha a' ha'
    by_cases hk : k = c
    · subst hk
      rw [List.getElem?_set_self (List.getElem?_eq_some_iff.1 ha).1] at ha'
      cases ha'
      exact hB a ha
    · rw [List.getElem?_set_ne hk] at ha'
      exact hB a' ha'
  have hph := r2.phase
  cases hph with
  | idle m => exact match_held m hB hst
  | basic b h m => exact match_held m hB hst
  | hdr b h fmt n a h' cs pos e lt st' no m => exact match_held m (hset _ a h' st') hst
  | data b h A1 cs pos e no m =>
    refine match_held m ?_ hst
    unfold AM.head at e
    split at e
    · cases e
    · split at e
      · cases e
      · split at e
        · cases e
        · rename_i st' hst'
          split at e
          · cases e
          · split at e
            · cases e
            · simp only [Out.ok.injEq, Prod.mk.injEq] at e
              rw [← e.1]
              exact hset _ st' _ hst'

end Verif.Rtmp
