import Verif.KmpLinkProps

/-!
# C23: a history that meets the hypotheses, and cases where frames are lost or come twice
-/

namespace Verif.KmpLink

open Verif.KmpIn (field Packet Event Pieces)
open Verif.KmpOut (Track Op Up)

/-! ## A history -/

/-- A packet with a header of its own. -/
def mkh (ty : Nat) (hdr data : List UInt8) : Packet :=
  { raw := KmpInAck.bytesOf 4 ty ++ KmpInAck.bytesOf 4 (16 + hdr.length) ++ KmpInAck.bytesOf 4 data.length ++ KmpInAck.bytesOf 4 0,
    body := hdr ++ data }

/-- Media info for video or audio. -/
def infoM (m : Bool) : Packet :=
  mkh KmpIn.tMediaInfo (KmpInAck.bytesOf 4 m.toNat ++ KmpInAck.bytesOf 4 0 ++ KmpInAck.bytesOf 4 90000 ++ List.replicate 20 0) [1, 2]

/-- A frame which is a key frame or not, with a byte of data. -/
def frameM (k : Bool) (b : UInt8) : Packet := mkh KmpIn.tFrame (List.replicate 16 0 ++ KmpInAck.bytesOf 4 k.toNat ++ KmpInAck.bytesOf 4 0) [b]

/-- After an event of the sender. -/
def sent (l : Link) (op : Op) (qs : List Packet) : Link :=
  { l with t := KmpOut.after l.t op, ps := l.ps ++ qs,
           wires := l.wires ++ ((KmpOut.after l.t op).ups.take 1).map (·.wire), ackIn := ackIn' l op }

theorem reach_sent {cap : Nat} {connect : List UInt8} {l : Link} (op : Op) (qs : List Packet) (h : Reach cap connect l)
    (ha : KmpOut.Allowed true l.t l.ps op (l.ps ++ qs)) (ho : KmpOut.isOk (KmpOut.step l.t op) = true)
    (hl : (KmpOut.after l.t op).ups.length = l.t.ups.length ∨ op.first = false) (hd : DataOk op) (hh : Hears l op) :
    Reach cap connect (sent l op qs) := by
  cases e : KmpOut.step l.t op with
  | ok t' =>
    have ea : KmpOut.after l.t op = t' := by unfold KmpOut.after; rw [e]
    unfold sent
    rw [ea] at hl ⊢
    refine .step h (.send ha e (fun hf => ?_) hd hh)
    rcases hl with hl | hl
    · exact hl
    · rw [hl] at hf; exact nomatch hf
  | err => rw [e] at ho; exact nomatch ho
  | ub => rw [e] at ho; exact nomatch ho

/-- A connection the application accepts; it answers with `ok`. -/
def cfgOf (next : Nat) : Session := { next, max := 100, wait := false, accept := true, answer := fun _ _ => .ok }

def accepted (first : Nat) (l : Link) : Link :=
  { l with done := l.kept, cfg := cfgOf (nextOf l.kept), pieces := [], n := 0, ackOps := [],
           starts := l.starts ++ [max first (nextOf l.kept)] }

def received (l : Link) (b : List UInt8) : Link := { l with pieces := l.pieces ++ [(0, b)] }

/-- Two frames of video, or audio when `m`, are sent; the receiver gets the first and a part of the second one, keeps the first one
and acks it; the sender gets the ack and then an error. It connects again, and sends a third frame. The receiver gets
the rest, and keeps one frame of it if there is one. The second
and third frame are key frames when `k`. -/
def a1 (m _k : Bool) : Link := sent (start (KmpOut.create 64 KmpOut.conn0)) (KmpOut.wr (infoM m) KmpOut.still false) [infoM m]
def a2 (m k : Bool) : Link := sent (a1 m k) (.add none .lastAcked [5]) []
def a3 (m k : Bool) : Link := sent (a2 m k) (.connect 0 [6, 7]) []
def a4 (m k : Bool) : Link := sent (a3 m k) (KmpOut.wr (frameM true 11) KmpOut.still true) [frameM true 11]
def a5 (m k : Bool) : Link := sent (a4 m k) (KmpOut.wr (frameM k 12) KmpOut.still true) [frameM k 12]
def a6 (m k : Bool) : Link := sent (a5 m k) (.writable 0 (.room 1000) true) []
def a7 (m k : Bool) : Link := sent (a6 m k) (.flush { KmpOut.still with ios := [some (.room 1000)] }) []

/-- What is on the wire last. -/
def lastWire (l : Link) : List UInt8 := l.wires.getLast?.getD []

def b1 (m k : Bool) : Link := accepted 0 (a7 m k)
def b2 (m k : Bool) : Link := received (b1 m k) ((lastWire (b1 m k)).take 104)
def b3 (m k : Bool) : Link := received (b2 m k) ((lastWire (b1 m k)).drop 104 |>.take 100)
def b4 (m k : Bool) : Link := { b3 m k with n := 1 }
def b5 (m k : Bool) : Link := { b4 m k with ackOps := (b4 m k).ackOps ++ [.ack 1] }
def b6 (m k : Bool) : Link :=
  { b5 m k with ackOps := (b5 m k).ackOps ++ [.write [40]],
                ackWires := (b5 m k).ackWires ++ [({ b5 m k with ackOps := (b5 m k).ackOps ++ [.write [40]] } : Link).acks] }

def c1 (m k : Bool) : Link := sent (b6 m k) (.readable 0 (KmpInAck.packet 1) true true) []
def c2 (m k : Bool) : Link := sent (c1 m k) (.connect 0 [8]) []
def c3 (m k : Bool) : Link := sent (c2 m k) (KmpOut.wr (frameM k 13) KmpOut.still true) [frameM k 13]
def c4 (m k : Bool) : Link := sent (c3 m k) (.writable 0 (.room 1000) true) []
def c5 (m k : Bool) : Link := sent (c4 m k) (.flush { KmpOut.still with ios := [some (.room 1000)] }) []
def d1 (m k : Bool) : Link := accepted 0 (c5 m k)
def d2 (m k : Bool) : Link := received (d1 m k) ((lastWire (d1 m k)).take 104)
def d3 (m k : Bool) : Link := received (d2 m k) ((lastWire (d1 m k)).drop 104)
def d4 (m k : Bool) : Link := { d3 m k with n := min 1 (got (d3 m k).cfg (d3 m k).pieces).length }

def piecesOf : Nat → List (Nat × List UInt8) → Bool
  | _, [] => true
  | n, (_, b) :: rest => !b.isEmpty && (decide (104 ≤ n) || decide (n + b.length ≤ 104)) && piecesOf (n + b.length) rest

theorem pieces_of : ∀ (ps : List (Nat × List UInt8)) (n : Nat), piecesOf n ps = true → Pieces n ps
  | [], _, _ => trivial
  | (_, b) :: rest, n, h => by
    unfold piecesOf at h
    simp only [Bool.and_eq_true, Bool.or_eq_true, decide_eq_true_eq, Bool.not_eq_true', List.isEmpty_eq_false_iff] at h
    exact ⟨h.1.1, fun hn => h.1.2.resolve_left (by omega), pieces_of rest _ h.2⟩

theorem reach_received {cap : Nat} {connect : List UInt8} {l : Link} (b : List UInt8) (h : Reach cap connect l)
    (h1 : l.starts ≠ []) (h2 : Pieces 0 (l.pieces ++ [(0, b)])) (w : List UInt8) (hw : w ∈ l.wires)
    (h3 : bytes l.pieces ++ b <+: w)
    (h4 : l.cfg.next ≤ field (bytes l.pieces ++ b) 80 8 + l.cfg.max) : Reach cap connect (received l b) :=
  .step h (.receive 0 b h1 h2 ⟨w, hw, h3⟩ fun _ => h4)

theorem reach_accepted {cap : Nat} {connect : List UInt8} {l : Link} (h : Reach cap connect l) (first : Nat)
    (hf : field connect 80 8 = first) : Reach cap connect (accepted first l) := by
  subst hf
  exact .step h (.accept (cfgOf (nextOf l.kept)) rfl)

set_option hygiene false in
local macro "few" : tactic => `(tactic| (cases m <;> cases k <;> decide +kernel))

theorem reach_a7 (m k : Bool) : Reach 64 KmpOut.conn0 (a7 m k) := by
  have h0 : Reach 64 KmpOut.conn0 (start (KmpOut.create 64 KmpOut.conn0)) :=
    .start (by decide) (by decide) (by decide +kernel) (by decide +kernel) (by decide +kernel)
  have h1 : Reach 64 KmpOut.conn0 (a1 m k) := reach_sent _ _ h0
    (KmpOut.allowed_wr _ KmpOut.still false (by unfold KmpOut.Next; few) (fun _ => rfl)) (by few) (.inl (by few)) trivial trivial
  have h2 : Reach 64 KmpOut.conn0 (a2 m k) := reach_sent _ _ h1
    ⟨List.append_nil _, fun _ => rfl, (fun h => nomatch h), fun _ => by few⟩ (by few) (.inr (by few)) (by show _ ≤ _; decide) trivial
  have h3 : Reach 64 KmpOut.conn0 (a3 m k) := reach_sent _ _ h2
    (List.append_nil _) (by few) (.inl (by few)) (by show _ ≤ _; decide) trivial
  have h4 : Reach 64 KmpOut.conn0 (a4 m k) := reach_sent _ _ h3
    (KmpOut.allowed_wr _ KmpOut.still true (by unfold KmpOut.Next; few) (fun _ => rfl)) (by few) (.inl (by few)) trivial trivial
  have h5 : Reach 64 KmpOut.conn0 (a5 m k) := reach_sent _ _ h4
    (KmpOut.allowed_wr _ KmpOut.still true (by unfold KmpOut.Next; few) (fun _ => rfl)) (by few) (.inl (by few)) trivial trivial
  have h6 : Reach 64 KmpOut.conn0 (a6 m k) := reach_sent _ _ h5
    ⟨List.append_nil _, (fun h => nomatch h)⟩ (by few) (.inl (by few)) trivial trivial
  exact reach_sent _ _ h6 (List.append_nil _) (by few) (.inl (by few)) trivial trivial

theorem reach_b6 (m k : Bool) : Reach 64 KmpOut.conn0 (b6 m k) := by
  have h1 : Reach 64 KmpOut.conn0 (b1 m k) := reach_accepted (reach_a7 m k) 0 (by decide +kernel)
  have h2 : Reach 64 KmpOut.conn0 (b2 m k) := reach_received _ h1 (by few) (pieces_of _ _ (by few)) (lastWire (b1 m k)) (by few) (by few) (by few)
  have h3 : Reach 64 KmpOut.conn0 (b3 m k) := reach_received _ h2 (by few) (pieces_of _ _ (by few)) (lastWire (b1 m k)) (by few) (by few) (by few)
  have h4 : Reach 64 KmpOut.conn0 (b4 m k) := .step h3 (.keep 1 (by few) (by few))
  have h5 : Reach 64 KmpOut.conn0 (b5 m k) := .step h4 (.ack 1 (by few) (by few))
  exact .step h5 (.write [40] (by few))

theorem reach_d4 (m k : Bool) : Reach 64 KmpOut.conn0 (d4 m k) := by
  have h1 : Reach 64 KmpOut.conn0 (c1 m k) := reach_sent _ _ (reach_b6 m k)
    (List.append_nil _) (by few) (.inl (by few)) trivial
    (fun _ => ⟨(b6 m k).acks, List.mem_append_right _ (List.mem_singleton.2 rfl), by few⟩)
  have h2 : Reach 64 KmpOut.conn0 (c2 m k) := reach_sent _ _ h1
    (List.append_nil _) (by few) (.inl (by few)) (by show _ ≤ _; decide) trivial
  have h3 : Reach 64 KmpOut.conn0 (c3 m k) := reach_sent _ _ h2
    (KmpOut.allowed_wr _ KmpOut.still true (by unfold KmpOut.Next; few) (fun _ => rfl)) (by few) (.inl (by few)) trivial trivial
  have h4 : Reach 64 KmpOut.conn0 (c4 m k) := reach_sent _ _ h3
    ⟨List.append_nil _, (fun h => nomatch h)⟩ (by few) (.inl (by few)) trivial trivial
  have h5 : Reach 64 KmpOut.conn0 (c5 m k) := reach_sent _ _ h4 (List.append_nil _) (by few) (.inl (by few)) trivial trivial
  have h6 : Reach 64 KmpOut.conn0 (d1 m k) := reach_accepted h5 0 (by decide +kernel)
  have h7 : Reach 64 KmpOut.conn0 (d2 m k) := reach_received _ h6 (by few) (pieces_of _ _ (by few)) (lastWire (d1 m k)) (by few) (by few) (by few)
  have h8 : Reach 64 KmpOut.conn0 (d3 m k) := reach_received _ h7 (by few) (pieces_of _ _ (by few)) (lastWire (d1 m k)) (by few) (by few) (by few)
  exact .step h8 (.keep _ (by few) (Nat.min_le_right _ _))

/-- The theorems apply to it. For audio, every frame is due, and the application has all three. -/
example (k : Bool) : (d4 true k).kept ++ (d4 true k).pending = numbered 0 [infoM true, frameM true 11, frameM k 12, frameM k 13] ∧
    (d4 true k).kept.length = 2 := by revert k; decide +kernel

theorem due_one {first : Nat} {starts : List Nat} {ps : List Packet} (i : Packet) (rest : List Packet) (hps : ps = i :: rest)
    (hi : i.isInfo) (hm : i.media = 1) (hr : ∀ q ∈ rest, ¬ q.isInfo ∧ KmpIn.dsize q.raw ≠ 0) :
    ∀ pre p post, ps = pre ++ p :: post → p.isFrame → Due first starts pre p := by
  intro pre p post e hf
  cases pre with
  | nil =>
    rw [hps, List.nil_append] at e
    injection e with e1 _
    subst e1
    exfalso
    unfold Packet.isInfo at hi
    unfold Packet.isFrame at hf
    rw [hi] at hf
    exact absurd hf (by decide)
  | cons x pre =>
    rw [hps, List.cons_append] at e
    injection e with e1 e2
    subst e1
    refine ⟨hf, (hr p (by rw [e2]; simp)).2, [], i, pre, rfl, hi, (fun q hq => (hr q (by rw [e2]; simp [hq])).1), ?_, ?_⟩
    · rw [hm]; exact fun h => absurd h (by decide)
    · rw [hm]; exact fun h => absurd h (by decide)

/-- Every frame of the history with audio is due: the hypothesis of `frames_prefix_written_partial`. -/
example (k : Bool) : (d4 true k).kept ++ (d4 true k).pending <+: numbered (field KmpOut.conn0 80 8) (d4 true k).ps :=
  frames_prefix_written_partial (reach_d4 true k)
    (due_one (infoM true) [frameM true 11, frameM k 12, frameM k 13] (by revert k; decide +kernel) (by decide +kernel) (by decide +kernel)
      (by revert k; decide +kernel))

/-- The sender took the first frame for acknowledged. -/
example (m k : Bool) : (d4 m k).t.ups.map (·.frame) = [1] ∧ (d4 m k).starts = [0, 1] := by revert m k; decide +kernel

/-- C23, finding: of a video whose second and third frame are no key frames, the application has only the first one,
though the receiver got everything the sender wrote: after the connection broke, the receiver waits for a key frame. -/
theorem video_lost_after_reconnect : ∃ l, Reach 64 KmpOut.conn0 l ∧ (l.ps.filter (·.isFrame)).length = 3 ∧
    (∀ w, l.wires.getLast? = some w → bytes l.pieces = w) ∧ l.conn = true ∧ (l.kept ++ l.pending).length = 1 :=
  ⟨d4 false false, reach_d4 false false, by decide +kernel, by decide +kernel, by decide +kernel, by decide +kernel⟩

/-- Key frames get through. -/
example : ((d4 false true).kept ++ (d4 false true).pending).length = 3 := by decide +kernel

/-- C23, finding: when the sender starts more than `max_skip_frames` before what the application has, frames come again.
-/
example : (got { cfgOf 1 with max := 0 } (d3 true true).pieces).map eventId = [1, 2] ∧
    (got { cfgOf 2 with max := 0 } (d3 true true).pieces).map eventId = [1, 2] ∧
    (got { cfgOf 2 with max := 1 } (d3 true true).pieces).map eventId = [2] := by decide +kernel

end Verif.KmpLink
