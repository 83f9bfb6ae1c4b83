import Verif.Ctr

/-!
# The write buffer of the packager

Model of /repo/nginx-pckg-module/src/media/write_buffer.c with `reuse_buffers` off, and of `mp4_aes_ctr_write_encrypted`. Allocations and
the callback succeed.
-/

namespace Verif.Cenc

/-! ## Model -/

/-- `write_buffer_state_t`: what the callback got, the bytes from `start_pos` to `cur_pos`, and the size of the buffer. -/
structure WB where
  sent : List UInt8
  buf : List UInt8
  cap : Nat
deriving Repr, DecidableEq

/-- `write_buffer_init` (write_buffer.c:7-20). -/
def WB.init : WB := ⟨[], [], 0⟩

/-- `write_buffer_flush` (write_buffer.c:22-65); `bs` is the size of a new buffer. -/
def WB.flush (bs : Nat) (s : WB) (realloc : Bool) : WB := ⟨s.sent ++ s.buf, [], if realloc then bs else 0⟩

/-- `write_buffer_get_bytes` (write_buffer.c:67-103), without the move of `cur_pos`. -/
def WB.room (bs : Nat) (s : WB) (min : Nat) : Res WB :=
  let s := if s.buf.length + min > s.cap then s.flush bs true else s
  if min > s.cap then .err else .ok s

/-- Bytes written at `cur_pos`; it is undefined to write past the end of the buffer. -/
def WB.put (s : WB) (d : List UInt8) : Res WB := if s.buf.length + d.length ≤ s.cap then .ok { s with buf := s.buf ++ d } else .ub

/-- `write_buffer_write` (write_buffer.c:105-139); the loop does not end when a new buffer has no room. -/
def WB.writeLoop (bs : Nat) : Nat → WB → List UInt8 → Res WB
  | 0, _, _ => .ub
  | k + 1, s, d =>
    let n := s.cap - s.buf.length
    let s := { s with buf := s.buf ++ d.take n }
    if d.length ≤ n then .ok s else WB.writeLoop bs k (s.flush bs true) (d.drop n)

def WB.write (bs : Nat) (s : WB) (d : List UInt8) : Res WB := WB.writeLoop bs (d.length + 2) s d

/-- `mp4_aes_ctr_write_encrypted` (mp4_aes_ctr.c:156-194). -/
def encLoop (E : Cipher) (bs : Nat) : Nat → Ctr → WB → List UInt8 → Res (Ctr × WB)
  | _, c, s, [] => .ok (c, s)
  | 0, _, _, _ => .ub
  | k + 1, c, s, d => do
    let s ← s.room bs 16
    let w := min (s.cap - s.buf.length) d.length
    let (c, out) ← c.process E (d.take w)
    let s ← s.put out
    encLoop E bs k c s (d.drop w)

def writeEnc (E : Cipher) (bs : Nat) (c : Ctr) (s : WB) (d : List UInt8) : Res (Ctr × WB) := encLoop E bs d.length c s d

/-! ## What is written -/

/-- All bytes written so far. -/
def WB.all (s : WB) : List UInt8 := s.sent ++ s.buf

def WB.Ok (s : WB) : Prop := s.buf.length ≤ s.cap

theorem WB.flush_all (bs : Nat) (s : WB) (r : Bool) : (s.flush bs r).all = s.all := by simp [WB.flush, WB.all]

theorem WB.flush_sent (bs : Nat) (s : WB) (r : Bool) : (s.flush bs r).sent = s.all := rfl

theorem WB.flush_ok (bs : Nat) (s : WB) (r : Bool) : (s.flush bs r).Ok := by simp [WB.flush, WB.Ok]

theorem WB.room_spec {bs : Nat} {s : WB} {min : Nat} (hb : min ≤ bs) :
    ∃ s', s.room bs min = .ok s' ∧ s'.all = s.all ∧ s'.buf.length + min ≤ s'.cap := by
  unfold WB.room
  by_cases h : s.buf.length + min > s.cap
  · rw [if_pos h]
    refine ⟨s.flush bs true, ?_, WB.flush_all _ _ _, ?_⟩
    · dsimp only; rw [if_neg (by simp [WB.flush]; exact hb)]
    · simp [WB.flush]; exact hb
  · rw [if_neg h]
    refine ⟨s, ?_, rfl, by omega⟩
    dsimp only; rw [if_neg (by omega)]

theorem WB.put_spec {s : WB} {d : List UInt8} (h : s.buf.length + d.length ≤ s.cap) : ∃ s', s.put d = .ok s' ∧ s'.all = s.all ++ d ∧ s'.Ok := by
  refine ⟨_, by unfold WB.put; rw [if_pos h], by simp [WB.all], ?_⟩
  simp [WB.Ok]; exact h

theorem WB.writeLoop_spec {bs : Nat} (hb : 0 < bs) : ∀ (k : Nat) (s : WB) (d : List UInt8), s.Ok → d.length + (if s.cap = s.buf.length then 1 else 0) < k →
    ∃ s', WB.writeLoop bs k s d = .ok s' ∧ s'.all = s.all ++ d ∧ s'.Ok
  | 0, _, _, _, h => by omega
  | k + 1, s, d, hs, hk => by
    rw [WB.writeLoop]
    unfold WB.Ok at hs
    by_cases h : d.length ≤ s.cap - s.buf.length
    · rw [if_pos h]
      refine ⟨_, rfl, ?_, ?_⟩
      · rw [List.take_of_length_le h]; simp [WB.all]
      · rw [List.take_of_length_le h]; simp [WB.Ok]; omega
    · rw [if_neg h]
      obtain ⟨s', e1, e2, e3⟩ := WB.writeLoop_spec hb k (WB.flush bs { s with buf := s.buf ++ d.take (s.cap - s.buf.length) } true) (d.drop (s.cap - s.buf.length))
        (WB.flush_ok _ _ _) (by
          rw [List.length_drop]
          simp only [WB.flush, if_true, List.length_nil]
          rw [if_neg (by omega)]
          by_cases h0 : s.cap = s.buf.length
          · rw [if_pos h0] at hk; omega
          · rw [if_neg h0] at hk; omega)
      refine ⟨s', e1, ?_, e3⟩
      rw [e2, WB.flush_all]
      simp [WB.all, List.append_assoc, List.take_append_drop]

theorem WB.write_spec {bs : Nat} (hb : 0 < bs) {s : WB} (hs : s.Ok) (d : List UInt8) : ∃ s', s.write bs d = .ok s' ∧ s'.all = s.all ++ d ∧ s'.Ok :=
  WB.writeLoop_spec hb _ s d hs (by split <;> omega)

theorem encLoop_spec {E : Cipher} {bs : Nat} (hb : 16 ≤ bs) {iv : List UInt8} : ∀ (k : Nat) (d : List UInt8) (p : Nat) (c : Ctr) (s : WB), c.At E iv p → s.Ok →
    d.length ≤ k → ∃ c' s', encLoop E bs k c s d = .ok (c', s') ∧ c'.At E iv (p + d.length) ∧ s'.all = s.all ++ xorAt (stream E iv) p d ∧ s'.Ok
  | _, [], p, c, s, hc, hs, _ => ⟨c, s, by unfold encLoop; rfl, hc, by simp [xorAt], hs⟩
  | 0, d :: ds, _, _, _, _, _, hk => by simp at hk
  | k + 1, d :: ds, p, c, s, hc, hs, hk => by
    rw [encLoop]
    case x_4 => simp
    obtain ⟨s1, r1, r2, r3⟩ := WB.room_spec (s := s) hb
    rw [r1]
    simp only [Res.bind_ok]
    generalize hw : min (s1.cap - s1.buf.length) (d :: ds).length = w
    have hd : 0 < (d :: ds).length := by simp
    have hlt : ((d :: ds).take w).length = w := by rw [List.length_take]; omega
    obtain ⟨c1, q1, q2⟩ := Ctr.process_exact hc ((d :: ds).take w)
    rw [q1]
    simp only [Res.bind_ok]
    obtain ⟨s2, t1, t2, t3⟩ := WB.put_spec (s := s1) (d := xorAt (stream E iv) p ((d :: ds).take w)) (by rw [xorAt_length, hlt]; omega)
    rw [t1]
    simp only [Res.bind_ok]
    rw [hlt] at q2
    obtain ⟨c3, s3, u1, u2, u3, u4⟩ := encLoop_spec hb k ((d :: ds).drop w) (p + w) c1 s2 q2 t3 (by rw [List.length_drop]; omega)
    refine ⟨c3, s3, u1, ?_, ?_, u4⟩
    · rw [List.length_drop] at u2
      rwa [show p + w + ((d :: ds).length - w) = p + (d :: ds).length by omega] at u2
    · rw [u3, t2, r2, List.append_assoc]
      congr 1
      conv => rhs; rw [← List.take_append_drop w (d :: ds)]
      rw [xorAt_append, hlt]

theorem writeEnc_spec {E : Cipher} {bs : Nat} (hb : 16 ≤ bs) {iv : List UInt8} {p : Nat} {c : Ctr} {s : WB} (hc : c.At E iv p) (hs : s.Ok) (d : List UInt8) :
    ∃ c' s', writeEnc E bs c s d = .ok (c', s') ∧ c'.At E iv (p + d.length) ∧ s'.all = s.all ++ xorAt (stream E iv) p d ∧ s'.Ok :=
  encLoop_spec hb _ d p c s hc hs (Nat.le_refl _)

end Verif.Cenc
