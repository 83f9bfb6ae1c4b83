import Verif.AckMap

/-!
# Specification of ack mapping

Uses only the events and the type of positions of the model, none of its functions.
-/

namespace Verif.Ack.Spec

/-- Samples before frame `k` of a list of durations. -/
def start (d : List Nat) (k : Nat) : Nat := (d.take k).sum

/-- What happened so far. `ins` are the durations of the input frames by id, from the first id on, with 0
for an id that never left the decoder. `outs` are the durations of the output frames. `acked` output frames are
acked. `mark` is the sample at which the acked output ended, at the last ack that left some input unacked.
`filts` frames have left the filter. -/
structure Log where
  ins : List Nat
  outs : List Nat
  acked : Nat
  mark : Nat
  filts : Nat
deriving Repr, DecidableEq

/-- The log before anything happened. -/
def Log.empty : Log := ⟨[], [], 0, 0, 0⟩

/-- The log after an event, for first ids `i0` and `o0`. -/
def Log.after (i0 o0 : Nat) (L : Log) : Ev → Log
  | .inp id n => { L with ins := L.ins ++ (List.replicate (id - (i0 + L.ins.length)) 0 ++ [n]) }
  | .filt _ _ => { L with filts := L.filts + 1 }
  | .out n => { L with outs := L.outs ++ [n] }
  | .ack id => { L with
      acked := id - o0
      mark := if start L.outs (id - o0) < L.ins.sum then start L.outs (id - o0) else L.mark }

/-- The log after events. -/
def Log.afters (i0 o0 : Nat) (L : Log) (es : List Ev) : Log := es.foldl (Log.after i0 o0) L

/-- Fewer than 2^30 samples wait for an ack (over six hours at 48 kHz), and ids and totals fit 62 bits. -/
def Log.Fits (i0 o0 : Nat) (L : Log) : Prop :=
  L.ins.sum < L.mark + 2 ^ 30 ∧ L.outs.sum < start L.outs L.acked + 2 ^ 30 ∧
  L.ins.sum < 2 ^ 61 ∧ L.outs.sum < 2 ^ 61 ∧
  0 < i0 ∧ i0 + L.ins.length < 2 ^ 62 ∧ 0 < o0 ∧ o0 + L.outs.length < 2 ^ 62

/-- An ack that can be answered: not before an earlier ack, of an output frame that was made or of the one
after the last, and that starts within the input. -/
def Log.CanAck (o0 : Nat) (L : Log) (id : Nat) : Prop :=
  o0 + L.acked ≤ id ∧ id ≤ o0 + L.outs.length ∧ start L.outs (id - o0) ≤ L.ins.sum ∧ L.ins ≠ []

/-- Events of a session without a filter: ids of input frames go up, the first id is there. -/
def Direct (i0 o0 : Nat) (L : Log) : Ev → Prop
  | .inp id n => i0 + L.ins.length ≤ id ∧ id - (i0 + L.ins.length) < 2 ^ 30 ∧
      (L.ins = [] → id = i0) ∧ 0 < n ∧ n < 2 ^ 30
  | .filt _ _ => False
  | .out n => 0 < n ∧ n < 2 ^ 30
  | .ack id => L.CanAck o0 id

/-- Events of a session with a filter that neither adds nor drops samples, with `D` samples in every frame:
frames leave the filter in the order of the input, frames leave the encoder after the filter. -/
def Filtered (D i0 o0 : Nat) (L : Log) : Ev → Prop
  | .inp id n => id = i0 + L.ins.length ∧ n = D
  | .filt id n => id = i0 + L.filts ∧ L.filts < L.ins.length ∧ n = D
  | .out n => n = D ∧ L.outs.length < L.filts
  | .ack id => L.CanAck o0 id

/-- Every event is allowed by `ok` and leaves a log that fits. -/
def Allowed (ok : Log → Ev → Prop) (i0 o0 : Nat) : Log → List Ev → Prop
  | _, [] => True
  | L, e :: es => ok L e ∧ (L.after i0 o0 e).Fits i0 o0 ∧ Allowed ok i0 o0 (L.after i0 o0 e) es

/-- The position `p` is sample `t` of the input: so many samples are before it, and its offset is within its
frame. -/
def At (i0 : Nat) (ins : List Nat) (p : Pos) (t : Nat) : Prop :=
  ∃ k, p.id = i0 + k ∧ k ≤ ins.length ∧ start ins k + p.off = t ∧
    (p.off = 0 ∨ ∃ h : k < ins.length, p.off < ins[k])

/-! ## Video -/

/-- An input frame of video. -/
structure Frame where
  id : Nat
  pts : Nat
  key : Bool
deriving Repr, DecidableEq

/-- What happened so far to a video track: the frames that left the filter, the key frames that left the
encoder (id and pts), and the id last acked. -/
structure VLog where
  ins : List Frame
  outs : List (Nat × Nat)
  acked : Nat
deriving Repr, DecidableEq

/-- The log before anything happened. -/
def VLog.empty : VLog := ⟨[], [], 0⟩

/-- The log after an event. -/
def VLog.after (L : VLog) : VEv → VLog
  | .inp id pts key => { L with ins := L.ins ++ [⟨id, pts, key⟩] }
  | .out id pts key => if key then { L with outs := L.outs ++ [(id, pts)] } else L
  | .ack id => { L with acked := id }

/-- The log after events. -/
def VLog.afters (L : VLog) (es : List VEv) : VLog := es.foldl VLog.after L

/-- Two timestamps less than 5 ms apart. -/
def Near (a b : Nat) : Prop := a < b + 450 ∧ b < a + 450

/-- Input frames are at least 10 ms apart. A key frame of the output has an input frame within 5 ms, ids and
times of output key frames go up. An ack is of an output key frame, not before an earlier ack. -/
def VOk (L : VLog) : VEv → Prop
  | .inp _ pts _ => pts < 2 ^ 62 ∧ ∀ f ∈ L.ins, f.pts + 900 ≤ pts
  | .out id pts key => key = true → pts < 2 ^ 62 ∧ (∃ f ∈ L.ins, Near f.pts pts) ∧
      ∀ o ∈ L.outs, o.1 < id ∧ o.2 ≤ pts
  | .ack id => L.acked ≤ id ∧ ∃ pts, (id, pts) ∈ L.outs

/-- Every event is allowed. -/
def VAllowed : VLog → List VEv → Prop
  | _, [] => True
  | L, e :: es => VOk L e ∧ VAllowed (L.after e) es

/-- The id of the last key frame in a list of frames, `i0` when there is none. -/
def lastKeyOf (i0 : Nat) (fs : List Frame) : Nat :=
  fs.foldl (fun k f => if f.key then f.id else k) i0

/-- The position `p` stands for the input frame at `pts`: it is the id of the last key frame up to that frame,
so that decoding can start there. If the frame is a key frame, the position is that very frame. -/
def VAt (i0 : Nat) (ins : List Frame) (pts : Nat) (p : Pos) : Prop :=
  ∃ pre f post, ins = pre ++ f :: post ∧ Near f.pts pts ∧ p.id = lastKeyOf i0 (pre ++ [f]) ∧
    (f.key = true → p = ⟨f.id, 0⟩)

/-- What the position should be for every frame: the offset is the number of frames to skip after the key
frame. -/
def VExact (i0 : Nat) (ins : List Frame) (pts : Nat) (p : Pos) : Prop :=
  ∃ pre f post, ins = pre ++ f :: post ∧ Near f.pts pts ∧ p.id = lastKeyOf i0 (pre ++ [f]) ∧
    p.off = f.id - p.id

end Verif.Ack.Spec
