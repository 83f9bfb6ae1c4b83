import Verif.RtmpEnc

/-!
# RTMP: what is sent is received

C65. The sender is that of RtmpSpec.lean. The handlers are functions of the messages (`flatH`): they do not see how a payload is cut
into buffers.

The full claim, `Delivers`, is for all senders that follow the specification, when chunks of type 3 are read as the specification
demands or when the session finds out by itself. It is false, RtmpCases.lean. It is proved here for senders that do not start a message
with type 3 after one with type 0, and, when the session finds out by itself, do not use a chunk of type 3 with an extended timestamp
after the start of a message with another.
-/

namespace Verif.Rtmp

open Verif.RtmpSpec

/-- The full claim. -/
def Delivers : Prop := ∀ (g : Cfg) (F : List Mess → Option (List Nat)) (T : Terms) (t3 : T3) (bytes : List UInt8) (S : Sender) (s : Sess),
  T.rep = true → t3 ≠ .off → Stream F T g.maxStreams g.maxMessage bytes S → Run g (flatH F) (newSess g t3) bytes s → Waits s → s.log.map Msg.flat = S.sent

/-- When all the bytes were read, the messages are those that were sent. -/
theorem sent_received_partial {g : Cfg} {F : List Mess → Option (List Nat)} {T : Terms} {t3 : T3} {bytes : List UInt8} {S : Sender} {s : Sess} (hm : ModeOk T t3)
    (hz : T.zero = false) (h : Stream F T g.maxStreams g.maxMessage bytes S) (hr : Run g (flatH F) (newSess g t3) bytes s) (hw : Waits s) :
    s.log.map Msg.flat = S.sent ∧ s.chunk = S.size := by
  obtain ⟨A, h1, h2⟩ := stream_reads hm hz h
  obtain ⟨B, pend, r1, r2⟩ := run_rel hr
  have e := rel_waits r2 hw
  have : A.step g (flatH F) [] = .more := by
    refine step_of_more _ ?_
    unfold AM.head
    rfl
  have hAB : A = B := by
    rcases reads_total h1 r1 with h | h
    · exact (reads_stuck h (by rw [this]; simp)).1.symm
    · exact (reads_stuck h (by rw [e]; simp)).1
  subst hAB
  rw [(rel_log r2).1, (rel_log r2).2]
  exact ⟨h2.log, h2.size⟩

/-- At any time, with part of the bytes, the messages are the first of those that are sent. -/
theorem sent_prefix_partial {g : Cfg} {F : List Mess → Option (List Nat)} {T : Terms} {t3 : T3} {bytes more : List UInt8} {S : Sender} {s : Sess} (hm : ModeOk T t3)
    (hz : T.zero = false) (h : Stream F T g.maxStreams g.maxMessage (bytes ++ more) S) (hr : Run g (flatH F) (newSess g t3) bytes s) :
    s.log.map Msg.flat <+: S.sent := by
  obtain ⟨A, h1, h2⟩ := stream_reads hm hz h
  obtain ⟨B, pend, r1, r2⟩ := run_rel hr
  have : A.step g (flatH F) [] = .more := by
    refine step_of_more _ ?_
    unfold AM.head
    rfl
  rw [(rel_log r2).1, ← h2.log]
  rcases reads_total (reads_app r1 more) h1 with h | h
  · obtain ⟨l, hl⟩ := reads_log h
    rw [hl, List.map_append]
    exact List.prefix_append _ _
  · rw [(reads_stuck h (by rw [this]; simp)).1]
    exact List.prefix_refl _

/-- The session does not close the connection of such a sender. -/
theorem sender_kept_partial {g : Cfg} {F : List Mess → Option (List Nat)} {T : Terms} {t3 : T3} {bytes more : List UInt8} {S : Sender} (hm : ModeOk T t3)
    (hz : T.zero = false) (h : Stream F T g.maxStreams g.maxMessage (bytes ++ more) S) : ¬ Fails g (flatH F) (newSess g t3) bytes := by
  intro hf
  obtain ⟨A, h1, h2⟩ := stream_reads hm hz h
  obtain ⟨B, pend, r1, e⟩ := fails_reads hf
  have e' : B.step g (flatH F) (pend ++ more) = .bad := by rw [step_app (by rw [e]; simp), e]
  have hmore : A.step g (flatH F) [] = .more := by
    refine step_of_more _ ?_
    unfold AM.head
    rfl
  rcases reads_total (reads_app r1 more) h1 with h | h
  · obtain ⟨rfl, hq⟩ := reads_stuck h (by rw [e']; simp)
    rw [← hq, hmore] at e'
    cases e'
  · obtain ⟨rfl, hq⟩ := reads_stuck h (by rw [hmore]; simp)
    rw [hq, hmore] at e'
    cases e'

/-- Bytes of such a sender are read in finitely many rounds: nothing of what was sent is held back. -/
theorem sender_served_partial {g : Cfg} {F : List Mess → Option (List Nat)} {T : Terms} {t3 : T3} {bytes : List UInt8} {S : Sender} {s : Sess} (hm : ModeOk T t3)
    (hz : T.zero = false) (h : Stream F T g.maxStreams g.maxMessage bytes S) (hr : Run g (flatH F) (newSess g t3) bytes s) :
    ∃ s', Run g (flatH F) (newSess g t3) bytes s' ∧ Waits s' ∧ s'.log.map Msg.flat = S.sent := by
  rcases recv_ends hr with ⟨s', h1, h2⟩ | hf
  · exact ⟨s', h1, h2, (sent_received_partial hm hz h h1 h2).1⟩
  · exact absurd hf (sender_kept_partial (more := []) hm hz (by simpa using h))

end Verif.Rtmp
