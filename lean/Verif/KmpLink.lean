import Verif.KmpLinkUp
import Verif.KmpInFrames

/-!
# A KMP sender and a KMP receiver that are connected again and again

The sender is the track of `KmpOut`, used calmly (last acked policy, no memory pressure); the link is its first
upstream, which connects again after every error. The receiver is `KmpIn` with acks (`KmpInAck`), and an
application that keeps frames like the segmenter of nginx-live-module: frames that it has and does not keep are
dropped when a new connection starts.
-/

namespace Verif.KmpLink

open Verif.KmpIn (field Packet Event Rc App Pieces)
open Verif.KmpOut (Track Op)

/-- The number of frames to skip: ngx_live_segmenter.c:3339-3355 (the same in ngx_live_segmenter_ll.c:3342-3356). `next`
is `next_frame_id`, `f` the `initial_frame_id` of the connection, `max` is `max_skip_frames`. -/
def skip (max next f : Nat) : Nat := if next > f then (if next - f > max then 0 else next - f) else 0

/-- The id of a frame event. -/
def eventId : Event → Nat
  | .frame id .. => id
  | _ => 0

/-- `next_frame_id` when the frames `kept` were kept: one more than the last (ngx_live_segmenter.c:1920), 0 at first. -/
def nextOf (kept : List Event) : Nat :=
  match kept.getLast? with
  | some e => eventId e + 1
  | none => 0

/-- One connection at the receiver: `next_frame_id` when it starts, `max_skip_frames`, the flag `skip_wait_key`,
whether the application accepts it, and the answers of the application to events, which may depend on all before. -/
structure Session where
  next : Nat
  max : Nat
  wait : Bool
  accept : Bool
  answer : List Event → Event → Rc

/-- The application of a connection (`ngx_live_segmenter_start_stream`, ngx_live_segmenter.c:3327-3359, and
`ngx_live_lls_start_stream`, ngx_live_segmenter_ll.c:3282-3366, where nothing that was received is dropped). -/
def app (c : Session) : App (List Event) :=
  { connected := fun s h => (s, if c.accept then some (skip c.max c.next (field h 80 8), c.wait) else none)
    handle := fun s e => (s ++ [e], c.answer s e) }

/-- The frames the application gets from the pieces that are received. -/
def got (c : Session) (pieces : List (Nat × List UInt8)) : List Event :=
  match KmpIn.run (app c) (KmpIn.create []) pieces with
  | some (x, _) => x.log.filter Event.isFrame
  | none => []

/-- The bytes of the pieces. -/
def bytes (pieces : List (Nat × List UInt8)) : List UInt8 := pieces.flatMap (·.2)

/-- The whole system. `wires` has what was on the wire of the link after each event of the sender, on all
connections, and `ackWires` what was sent back by the receiver, on all connections. `ackIn` are the bytes the sender
got back on the present connection. Receiver: `done` are the frames kept from earlier connections; `cfg`, `pieces`
are the present connection, `n` is how many of its frames are kept, `ackOps` what happened to acks. `starts` has the
lowest id that is still wanted, for each connection. -/
structure Link where
  t : Track
  ps : List Packet
  wires : List (List UInt8)
  ackIn : List UInt8
  ackWires : List (List UInt8)
  done : List Event
  cfg : Session
  pieces : List (Nat × List UInt8)
  n : Nat
  ackOps : List KmpInAck.Op
  starts : List Nat

/-- The frames the receiver keeps. -/
def Link.kept (l : Link) : List Event := l.done ++ (got l.cfg l.pieces).take l.n

/-- The frames it has got on the present connection, and does not keep yet. -/
def Link.pending (l : Link) : List Event := (got l.cfg l.pieces).drop l.n

/-- The bytes of acks that were sent on the present connection (ngx_kmp_in.c:1024-1027 sets `acked_frame_id`). -/
def Link.acks (l : Link) : List UInt8 := (l.ackOps.foldl KmpInAck.step (KmpInAck.init (field (bytes l.pieces) 80 8))).sent

/-- The link has a connection. -/
def Link.conn (l : Link) : Bool := match l.t.ups[0]? with
  | some u => u.conn
  | none => false

/-- What the sender got back, after an event of the sender. -/
def ackIn' (l : Link) : Op → List UInt8
  | .connect 0 _ => if l.conn then l.ackIn else []
  | .readable 0 b _ _ => if l.conn then l.ackIn ++ b else l.ackIn
  | _ => l.ackIn

/-- The bytes an event of the sender gets from the receiver are what some connection sent. -/
def Hears (l : Link) : Op → Prop
  | .readable 0 b _ _ => l.conn = true → ∃ w ∈ l.ackWires, l.ackIn ++ b <+: w
  | _ => True

/-- The data of connect packets is not too long (KMP_MAX_DATA_SIZE, ngx_live_kmp.h:9). -/
def DataOk : Op → Prop
  | .add _ _ cd => cd.length ≤ 16 * 1024 * 1024
  | .connect _ cd => cd.length ≤ 16 * 1024 * 1024
  | _ => True

/-- What can happen. Connections are not matched up with each other: the receiver may get on a connection what was
on the wire of any connection, old or new, up to any point, and the same for acks; so the case that is left out is
only that bytes are changed. -/
inductive Step (first : Nat) : Link → Link → Prop where
  /-- An event of the sender, which does not remove the link. -/
  | send {l : Link} {op : Op} {t' : Track} {ps' : List Packet} : KmpOut.Allowed true l.t l.ps op ps' →
      KmpOut.step l.t op = .ok t' → (op.first = true → t'.ups.length = l.t.ups.length) → DataOk op → Hears l op →
      Step first l { l with t := t', ps := ps', wires := l.wires ++ (t'.ups.take 1).map (·.wire), ackIn := ackIn' l op }
  /-- A new connection at the receiver; what is pending is dropped (`ngx_live_segmenter_remove_all_frames`, ngx_live_segmenter.c:1997-2031). -/
  | accept {l : Link} (c : Session) : c.next = nextOf l.kept →
      Step first l { l with done := l.kept, cfg := c, pieces := [], n := 0, ackOps := [], starts := l.starts ++ [max first c.next] }
  /-- Bytes are received on a connection. There are at most `max_skip_frames` frames to skip. -/
  | receive {l : Link} (addr : Nat) (b : List UInt8) : l.starts ≠ [] → Pieces 0 (l.pieces ++ [(addr, b)]) →
      (∃ w ∈ l.wires, bytes l.pieces ++ b <+: w) →
      (104 ≤ (bytes l.pieces ++ b).length → l.cfg.next ≤ field (bytes l.pieces ++ b) 80 8 + l.cfg.max) →
      Step first l { l with pieces := l.pieces ++ [(addr, b)] }
  /-- The application keeps more frames. -/
  | keep {l : Link} (m : Nat) : l.n ≤ m → m ≤ (got l.cfg l.pieces).length → Step first l { l with n := m }
  /-- The application acks frames that it keeps. -/
  | ack {l : Link} (id : Nat) : 104 ≤ (bytes l.pieces).length → id ≤ nextOf l.kept →
      Step first l { l with ackOps := l.ackOps ++ [.ack id] }
  /-- The socket of the receiver takes bytes of acks. -/
  | write {l : Link} (room : List Nat) : 104 ≤ (bytes l.pieces).length →
      Step first l { l with ackOps := l.ackOps ++ [.write room],
                            ackWires := l.ackWires ++ [({ l with ackOps := l.ackOps ++ [.write room] } : Link).acks] }

/-- The receiver before the first connection. -/
def start (t : Track) : Link :=
  { t, ps := [], wires := [], ackIn := [], ackWires := [], done := [],
    cfg := { next := 0, max := 0, wait := false, accept := false, answer := fun _ _ => .error },
    pieces := [], n := 0, ackOps := [], starts := [] }

/-- The states that can come about. The connect packet of the track is one. -/
inductive Reach (cap : Nat) (connect : List UInt8) : Link → Prop where
  | start : 0 < cap → connect.length = 104 → KmpIn.ptype connect = KmpIn.tConnect → KmpIn.hsize connect = 104 →
      field connect 80 8 < 2 ^ 64 - 1 → Reach cap connect (start (KmpOut.create cap connect))
  | step {l l' : Link} : Reach cap connect l → Step (field connect 80 8) l l' → Reach cap connect l'

end Verif.KmpLink
