import Verif.RtmpIter

/-!
# RTMP: the messages do not depend on how the bytes arrive

C64. A run is any sequence of rounds of the loop: a round with bytes from the network when none are left, and a round without when some
are left. The network returns any number of bytes that there is room for.
-/

namespace Verif.Rtmp

/-- `bytes` were received from the network, and the rounds so far went well. -/
inductive Run (g : Cfg) (H : Handler) (s0 : Sess) : List UInt8 → Sess → Prop where
  | init : Run g H s0 [] s0
  | again {bytes : List UInt8} {s s' : Sess} : Run g H s0 bytes s → s.oldSize ≠ 0 → iter g H s [] = .ok s' → Run g H s0 bytes s'
  | recv {bytes : List UInt8} {s s' : Sess} (inp : List UInt8) : Run g H s0 bytes s → s.oldSize = 0 → inp ≠ [] → inp.length ≤ room s →
      iter g H s inp = .ok s' → Run g H s0 (bytes ++ inp) s'

/-- The session waits for bytes. -/
def Waits (s : Sess) : Prop := s.oldSize = 0

/-- The connection was closed by the session; `bytes` were received. -/
def Fails (g : Cfg) (H : Handler) (s0 : Sess) (bytes : List UInt8) : Prop :=
  (∃ s, Run g H s0 bytes s ∧ s.oldSize ≠ 0 ∧ iter g H s [] = .err) ∨
  ∃ b inp s, bytes = b ++ inp ∧ Run g H s0 b s ∧ s.oldSize = 0 ∧ inp ≠ [] ∧ inp.length ≤ room s ∧ iter g H s inp = .err

/-! ## The machine without memory -/

/-- Chunks are taken from a list of bytes. -/
inductive Reads (g : Cfg) (H : Handler) (A : AM) (bs : List UInt8) : AM → List UInt8 → Prop where
  | refl : Reads g H A bs A bs
  | step {A' A'' : AM} {rest : List UInt8} {n : Nat} : Reads g H A bs A' rest → A'.step g H rest = .ok (A'', n) → Reads g H A bs A'' (rest.drop n)

theorem reads_app {g : Cfg} {H : Handler} {A A' : AM} {bs rest : List UInt8} (h : Reads g H A bs A' rest) (y : List UInt8) :
    Reads g H A (bs ++ y) A' (rest ++ y) := by
  induction h with
  | refl => exact .refl
  | step h e ih =>
    rename_i A1 A2 r n
    have hn := step_size e
    have e2 : A1.step g H (r ++ y) = .ok (A2, n) := by rw [step_app (by rw [e]; simp), e]
    have := Reads.step ih e2
    rw [List.drop_append_of_le_length hn.2] at this
    exact this

/-- Two readings of the same bytes: one goes on from the other. -/
theorem reads_total {g : Cfg} {H : Handler} {A A1 A2 : AM} {bs r1 r2 : List UInt8} (h1 : Reads g H A bs A1 r1) (h2 : Reads g H A bs A2 r2) :
    Reads g H A1 r1 A2 r2 ∨ Reads g H A2 r2 A1 r1 := by
  induction h1 with
  | refl => exact Or.inl h2
  | step h e ih =>
    rename_i B1 B2 r n
    rcases ih with ih | ih
    · -- the other goes on from the state before
      have : ∀ {X Y : AM} {a b : List UInt8}, Reads g H X a Y b → ∀ {Z : AM} {m : Nat}, X.step g H a = .ok (Z, m) →
          (X = Y ∧ a = b) ∨ Reads g H Z (a.drop m) Y b := by
        intro X Y a b h
        induction h with
        | refl => intro Z m _; exact Or.inl ⟨rfl, rfl⟩
        | step h1 e1 ih1 =>
          intro Z m eZ
          rcases ih1 eZ with ⟨rfl, rfl⟩ | h3
          · rw [eZ] at e1
            cases e1
            exact Or.inr .refl
          · exact Or.inr (.step h3 e1)
      rcases this ih e with ⟨rfl, rfl⟩ | h3
      · exact Or.inr (.step .refl e)
      · exact Or.inl h3
    · exact Or.inr (.step ih e)

theorem reads_stuck {g : Cfg} {H : Handler} {A A' : AM} {bs rest : List UInt8} (h : Reads g H A bs A' rest) (hs : ∀ x, A.step g H bs ≠ .ok x) :
    A' = A ∧ rest = bs := by
  induction h with
  | refl => exact ⟨rfl, rfl⟩
  | step h e ih =>
    obtain ⟨rfl, rfl⟩ := ih
    exact absurd e (hs _)

/-! ## Logs only grow -/

theorem setChunk_log (A : AM) (n : Nat) : (A.setChunk n).log = A.log := by
  unfold AM.setChunk
  split <;> rfl

theorem setChunks_log : ∀ (ns : List Nat) (A : AM), (A.setChunks ns).log = A.log := by
  intro ns
  induction ns with
  | nil => intro A; rfl
  | cons n ns ih =>
    intro A
    unfold AM.setChunks
    rw [ih, setChunk_log]

theorem step_log {g : Cfg} {H : Handler} {A A' : AM} {bs : List UInt8} {n : Nat} (h : A.step g H bs = .ok (A', n)) : ∃ l, A'.log = A.log ++ l := by
  unfold AM.step at h
  split at h
  · cases h
  · cases h
  · rename_i A1 c k e
    have hl := (head_ok e).2.2.2.2.1
    split at h
    · cases h
    · cases h
    · rename_i A2 j e2
      cases h
      unfold AM.body at e2
      split at e2
      · cases e2
      · split at e2
        · cases e2
        · split at e2
          · cases e2
            exact ⟨[], by simp [hl]⟩
          · simp only at e2
            split at e2
            · cases e2
            · cases e2
              rw [setChunks_log]
              simp only
              rw [hl]
              exact ⟨_, rfl⟩

theorem reads_log {g : Cfg} {H : Handler} {A A' : AM} {bs rest : List UInt8} (h : Reads g H A bs A' rest) : ∃ l, A'.log = A.log ++ l := by
  induction h with
  | refl => exact ⟨[], by simp⟩
  | step h e ih =>
    obtain ⟨l, hl⟩ := ih
    obtain ⟨l', hl'⟩ := step_log e
    exact ⟨l ++ l', by rw [hl', hl, List.append_assoc]⟩

/-! ## Sessions -/

/-- A new machine. -/
def newAM (g : Cfg) (type3 : T3) : AM := { streams := List.replicate g.maxStreams {}, chunk := 128, type3 }

theorem new_rel (g : Cfg) (H : Handler) (type3 : T3) : Rel g H (newSess g type3) (newAM g type3) [] := by
  have hflat : (List.replicate g.maxStreams ({} : Strm)).flatMap (·.chain) = [] := by
    rw [List.flatMap_eq_nil_iff]
    intro x hx
    rw [(List.mem_replicate.1 hx).2]
  have hd : ∀ n : Nat, Datas (newSess g type3) (List.replicate n {}) (List.replicate n {}) := by
    intro n
    induction n with
    | zero => exact trivial
    | succ n ih => exact ⟨rfl, rfl, ih⟩
  refine ⟨⟨(by decide : 1 ≤ 128), by simp [newSess], by simp [newSess], by simp [newSess], by simp [newSess], by simp [newSess], by simp [newSess], ?_, ?_⟩,
    .idle ⟨hd _, rfl, rfl, rfl, rfl⟩ rfl rfl ⟨rfl, fun h => absurd rfl h⟩ (by simp [newSess]) fun _ => rfl⟩
  · unfold allLinks newSess
    simp only [Option.toList, List.nil_append]
    rw [hflat]
    exact List.nodup_nil
  · intro l hl
    unfold allLinks newSess at hl
    simp only [Option.toList, List.nil_append] at hl
    rw [hflat] at hl
    cases hl

theorem run_rel {g : Cfg} {H : Handler} {type3 : T3} {bytes : List UInt8} {s : Sess} (h : Run g H (newSess g type3) bytes s) :
    ∃ A pend, Reads g H (newAM g type3) bytes A pend ∧ Rel g H s A pend := by
  induction h with
  | init => exact ⟨_, _, .refl, new_rel g H type3⟩
  | again h hz e ih =>
    obtain ⟨A, pend, hr, hrel⟩ := ih
    have := iter_sim (inp := []) hrel (fun hq => absurd hq hz)
    rw [e] at this
    unfold next at this
    rw [if_neg hz] at this
    rcases this with ⟨_, _, _, h3⟩ | ⟨A', n, h1, h2⟩
    · exact ⟨A, pend, hr, h3⟩
    · exact ⟨A', _, .step hr h1, h2⟩
  | recv inp h hz hne hlen e ih =>
    obtain ⟨A, pend, hr, hrel⟩ := ih
    have := iter_sim (inp := inp) hrel (fun _ => ⟨hne, hlen⟩)
    rw [e] at this
    unfold next at this
    rw [if_pos hz] at this
    rcases this with ⟨_, _, _, h3⟩ | ⟨A', n, h1, h2⟩
    · exact ⟨A, pend ++ inp, reads_app hr inp, h3⟩
    · exact ⟨A', _, .step (reads_app hr inp) h1, h2⟩

theorem rel_waits {g : Cfg} {H : Handler} {s : Sess} {A : AM} {pend : List UInt8} (h : Rel g H s A pend) (hz : Waits s) : A.step g H pend = .more := by
  cases hc : s.cur with
  | some b => exact (phase_more h.phase hc).2.1
  | none =>
    have hph := h.phase
    cases hph with
    | basic b' h' => rw [h'.cur] at hc; cases hc
    | hdr b' h' => rw [h'.cur] at hc; cases hc
    | data b' h' => rw [h'.cur] at hc; cases hc
    | idle hmat cs _ old chg init =>
      have hp : pend = [] := by
        have := old.size
        rw [hz] at this
        exact List.eq_nil_of_length_eq_zero this.symm
      rw [hp]
      refine step_of_more H ?_
      unfold AM.head
      rfl

theorem rel_log {g : Cfg} {H : Handler} {s : Sess} {A : AM} {pend : List UInt8} (h : Rel g H s A pend) : s.log = A.log ∧ s.chunk = A.chunk := by
  have hph := h.phase
  cases hph with
  | idle m => exact ⟨m.log, m.chunk⟩
  | basic b h m => exact ⟨m.log, m.chunk⟩
  | hdr b h fmt n a h' cs pos e lt st no m => exact ⟨m.log, m.chunk⟩
  | data b h A1 cs pos e no m =>
    have := head_ok e
    exact ⟨m.log.trans this.2.2.2.2.1, m.chunk.trans this.2.2.2.1⟩

theorem fails_reads {g : Cfg} {H : Handler} {type3 : T3} {bytes : List UInt8} (h : Fails g H (newSess g type3) bytes) :
    ∃ A pend, Reads g H (newAM g type3) bytes A pend ∧ A.step g H pend = .bad := by
  rcases h with ⟨s, hr, hz, e⟩ | ⟨b, inp, s, rfl, hr, hz, hne, hlen, e⟩
  · obtain ⟨A, pend, h1, h2⟩ := run_rel hr
    have := iter_sim (inp := []) h2 (fun hq => absurd hq hz)
    rw [e] at this
    unfold next at this
    rw [if_neg hz] at this
    exact ⟨A, pend, h1, this⟩
  · obtain ⟨A, pend, h1, h2⟩ := run_rel hr
    have := iter_sim (inp := inp) h2 (fun _ => ⟨hne, hlen⟩)
    rw [e] at this
    unfold next at this
    rw [if_pos hz] at this
    exact ⟨A, pend ++ inp, reads_app h1 inp, this⟩

/-! ## C64 -/

/-- The messages depend on the bytes only, not on how they were split. -/
theorem messages_of_bytes {g : Cfg} {H : Handler} {type3 : T3} {bytes : List UInt8} {s1 s2 : Sess}
    (h1 : Run g H (newSess g type3) bytes s1) (w1 : Waits s1) (h2 : Run g H (newSess g type3) bytes s2) (w2 : Waits s2) :
    s1.log = s2.log ∧ s1.chunk = s2.chunk := by
  obtain ⟨A1, p1, r1, q1⟩ := run_rel h1
  obtain ⟨A2, p2, r2, q2⟩ := run_rel h2
  have e1 := rel_waits q1 w1
  have e2 := rel_waits q2 w2
  have : A1 = A2 := by
    rcases reads_total r1 r2 with h | h
    · exact (reads_stuck h (by rw [e1]; simp)).1.symm
    · exact (reads_stuck h (by rw [e2]; simp)).1
  subst this
  exact ⟨(rel_log q1).1.trans (rel_log q2).1.symm, (rel_log q1).2.trans (rel_log q2).2.symm⟩

/-- With more bytes the same messages come first. -/
theorem messages_prefix {g : Cfg} {H : Handler} {type3 : T3} {bytes more : List UInt8} {s1 s2 : Sess}
    (h1 : Run g H (newSess g type3) bytes s1) (h2 : Run g H (newSess g type3) (bytes ++ more) s2) (w2 : Waits s2) : s1.log <+: s2.log := by
  obtain ⟨A1, p1, r1, q1⟩ := run_rel h1
  obtain ⟨A2, p2, r2, q2⟩ := run_rel h2
  have e2 := rel_waits q2 w2
  rw [(rel_log q1).1, (rel_log q2).1]
  rcases reads_total (reads_app r1 more) r2 with h | h
  · obtain ⟨l, hl⟩ := reads_log h
    exact ⟨l, hl.symm⟩
  · rw [(reads_stuck h (by rw [e2]; simp)).1]
    exact List.prefix_refl _

/-- When the connection is closed for some split of the bytes, no split of these and more bytes is read to the end. -/
theorem fails_of_bytes {g : Cfg} {H : Handler} {type3 : T3} {bytes more : List UInt8} {s : Sess} (h1 : Fails g H (newSess g type3) bytes)
    (h2 : Run g H (newSess g type3) (bytes ++ more) s) : ¬ Waits s := by
  intro w
  obtain ⟨A1, p1, r1, e1⟩ := fails_reads h1
  obtain ⟨A2, p2, r2, q2⟩ := run_rel h2
  have e2 := rel_waits q2 w
  have e1' : A1.step g H (p1 ++ more) = .bad := by rw [step_app (by rw [e1]; simp), e1]
  rcases reads_total (reads_app r1 more) r2 with h | h
  · obtain ⟨rfl, rfl⟩ := reads_stuck h (by rw [e1']; simp)
    rw [e1'] at e2
    cases e2
  · obtain ⟨rfl, rfl⟩ := reads_stuck h (by rw [e2]; simp)
    rw [e1'] at e2
    cases e2

/-- No round has undefined behaviour, and there is always room for bytes. -/
theorem recv_safe {g : Cfg} {H : Handler} {type3 : T3} {bytes : List UInt8} {s : Sess} (h : Run g H (newSess g type3) bytes s) :
    0 < room s ∧ (s.oldSize ≠ 0 → iter g H s [] ≠ .ub) ∧
      (s.oldSize = 0 → ∀ inp, inp ≠ [] → inp.length ≤ room s → iter g H s inp ≠ .ub) := by
  obtain ⟨A, pend, hr, hrel⟩ := run_rel h
  refine ⟨room_pos hrel, ?_, ?_⟩
  · intro hz e
    have := iter_sim (inp := []) hrel (fun hq => absurd hq hz)
    rw [e] at this
    exact this
  · intro hz inp hne hlen e
    have := iter_sim (inp := inp) hrel (fun _ => ⟨hne, hlen⟩)
    rw [e] at this
    exact this

theorem rel_left {g : Cfg} {H : Handler} {s : Sess} {A : AM} {pend : List UInt8} (h : Rel g H s A pend) (hz : s.oldSize ≠ 0) : s.oldSize = pend.length := by
  have hph := h.phase
  cases hph with
  | idle m cs cur old => exact old.size
  | basic b h => exact absurd h.size hz
  | hdr b h => exact absurd h.size hz
  | data b h => exact absurd h.size hz

/-- The bytes that are left are read in finitely many rounds. -/
theorem recv_ends {g : Cfg} {H : Handler} {type3 : T3} {bytes : List UInt8} {s : Sess} (h : Run g H (newSess g type3) bytes s) :
    (∃ s', Run g H (newSess g type3) bytes s' ∧ Waits s') ∨ Fails g H (newSess g type3) bytes := by
  obtain ⟨A, pend, hr, hrel⟩ := run_rel h
  obtain ⟨k, hk⟩ : ∃ k, pend.length ≤ k := ⟨_, Nat.le_refl _⟩
  clear hr
  induction k generalizing s A pend with
  | zero =>
    by_cases hz : s.oldSize = 0
    · exact Or.inl ⟨s, h, hz⟩
    · have := rel_left hrel hz
      omega
  | succ k ih =>
    by_cases hz : s.oldSize = 0
    · exact Or.inl ⟨s, h, hz⟩
    · have hi := iter_sim (inp := []) hrel (fun hq => absurd hq hz)
      unfold next at hi
      rw [if_neg hz] at hi
      cases e : iter g H s [] with
      | ok s' =>
        rw [e] at hi
        have hrun := Run.again h hz e
        rcases hi with ⟨_, _, h3, _⟩ | ⟨A', n, h1, h2⟩
        · exact Or.inl ⟨s', hrun, h3⟩
        · have hn := step_size h1
          exact ih hrun _ _ h2 (by rw [List.length_drop]; omega)
      | err => exact Or.inr (Or.inl ⟨s, h, hz, e⟩)
      | ub => rw [e] at hi; exact hi.elim

end Verif.Rtmp
