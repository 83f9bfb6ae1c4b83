import Verif.Syncer

/-!
# The syncer: what its frames should be

Of the model only the types of settings, frames and what is seen of a track are used.
-/

namespace Verif.SyncerSpec

open Verif.Syncer (Conf Frame Seen)

/-- The time of display. -/
def pts (video : Bool) (f : Frame) : Int := if video then f.dts + f.delay else f.dts

/-- A segment can start there: audio and key frames. -/
def starts (video : Bool) (f : Frame) : Prop := video = false ∨ f.flags.testBit 0 = true

/-- A frame that starts a segment is shown near the time it was made. -/
def OnTime (c : Conf) (video : Bool) (f f' : Frame) : Prop :=
  starts video f → f.created - (max c.back c.reuse * c.timescale : Nat) ≤ pts video f' ∧ pts video f' ≤ f.created + (max c.fwd c.reuse * c.timescale : Nat)

/-- Nothing changes but the time and the flag for a split, which is only put where a segment can start. -/
def Kept (video : Bool) (f f' : Frame) : Prop :=
  f'.id = f.id ∧ f'.created = f.created ∧ f'.delay = f.delay ∧ (f'.flags = f.flags ∨ starts video f ∧ f'.flags = f.flags ||| 16)

/-- Times so far apart, at a frame where no segment can start, that the source was changed. -/
def Jumps (c : Conf) (video : Bool) (a f : Frame) : Prop :=
  ¬ starts video f ∧ ((max c.jumpLog c.jump * c.timescale : Nat) : Int) < (pts video f - pts video a).natAbs

/-- What is known of the frame before. -/
inductive Past where
  | fresh
  | unknown
  | last (a a' : Frame)

/-- The rule for a frame after the one before (`a`): it has the same shift, unless it starts a split or the source was changed; in that case it is after the
one before, and near the time it was made or near the one before. The first frame starts a split. -/
def Rule (c : Conf) (video : Bool) (f f' : Frame) : Past → Prop
  | .unknown => True
  | .fresh => starts video f → f'.flags = f.flags ||| 16
  | .last a a' =>
    (f'.flags.testBit 4 = false → ¬ Jumps c video a f → f'.dts - f.dts = a'.dts - a.dts) ∧
      (Jumps c video a f → pts video a < 2 ^ 63 - 1 → a'.dts < 2 ^ 63 - 1 → a'.dts < f'.dts ∧
        ((pts video f' - f.created).natAbs ≤ c.reuse * c.timescale ∨ f'.dts ≤ a'.dts + 1 + (c.reuse * c.timescale : Nat)))

/-- All frames of a track. -/
def Follows (c : Conf) : Past → List Seen → Prop
  | _, [] => True
  | p, .frame video f f' :: l => Kept video f f' ∧ OnTime c video f f' ∧ Rule c video f f' p ∧ Follows c (.last f f') l
  | _, .reset :: l => Follows c .fresh l
  | _, .back _ :: l => Follows c .unknown l

/-- What is seen of one track. -/
def story (i : Nat) (l : List (Nat × Seen)) : List Seen := (l.filter fun x => x.1 == i).map (·.2)

end Verif.SyncerSpec

namespace Verif.SyncerSpec

open Verif.Syncer (Conf Ev Frame)

/-- Numbers that are far from the ends of 64 bits. -/
def Small (x : Int) : Prop := -2 ^ 60 ≤ x ∧ x ≤ 2 ^ 60

/-- A frame of a source: it was made `k` after its time, give or take `e`. -/
def Timed (k : Int) (e : Nat) (video : Bool) (f : Frame) : Prop :=
  Small f.created ∧ Small f.dts ∧ Small (pts video f) ∧ (f.created - pts video f - k).natAbs ≤ e

/-- A source: each track has times that grow and starts with a frame where a segment can start; the times of track `i` are behind the clock by `K + m i * W`, give or
take `e`. The list has for each track its kind and its last time. -/
def Source (K : Int) (e W : Nat) (m : Nat → Int) : List (Bool × Option Int) → List Ev → Prop
  | _, [] => True
  | ts, .add v :: l => Source K e W m (ts ++ [(v, none)]) l
  | ts, .inactive i :: l => ∃ v d, ts[i]? = some (v, d) ∧ Source K e W m (ts.set i (v, none)) l
  | ts, .frame i f :: l =>
    ∃ v d, ts[i]? = some (v, d) ∧ Timed (K + m i * W) e v f ∧ (d = none → starts v f) ∧ (∀ x, d = some x → x < f.dts) ∧ Source K e W m (ts.set i (v, some f.dts)) l
  | _, .reconnect .. :: _ => False

/-- Where the times of RTMP wrap: 2 ^ 32 ms. -/
def period (c : Conf) : Nat := 2 ^ 32 * (c.timescale / 1000)

/-- Settings for sources with this tolerance. -/
def Sane (c : Conf) (e : Nat) : Prop :=
  1000 ≤ c.timescale ∧ period c ≤ 2 ^ 60 ∧ 2 * (c.reuse * c.timescale) ≤ period c ∧ 2 * e < c.reuse * c.timescale ∧ c.back * c.timescale ≤ 2 ^ 60 ∧ c.fwd * c.timescale ≤ 2 ^ 60

/-- The times of the source are not near those of the clock, nor near them in some period. -/
def Far (c : Conf) (e : Nat) (K : Int) : Prop := ∀ k : Nat, c.reuse * c.timescale + e ≤ (K - (k * period c : Nat)).natAbs

/-- The track of the first frame. -/
def firstTrack : List Ev → Option Nat
  | [] => none
  | .frame i _ :: _ => some i
  | _ :: l => firstTrack l

end Verif.SyncerSpec

namespace Verif.SyncerSpec

open Verif.Syncer (Frame Seen)

/-- The ids of frames grow; a track that connects again goes on from the frame that is told. The list has the frames that count, the last one first. -/
def Ordered : List (Frame × Frame) → List Seen → Prop
  | _, [] => True
  | acc, .frame _ f f' :: l => (∀ x ∈ acc, x.1.id < f.id) ∧ Ordered ((f, f') :: acc) l
  | acc, .reset :: l => Ordered acc l
  | acc, .back n :: l => Ordered (acc.filter fun x => x.1.id < n) l

/-- The first frame after a track has connected again has the shift of the last frame that counts, unless it starts a split. -/
def Resumes : List (Frame × Frame) → Bool → List Seen → Prop
  | _, _, [] => True
  | acc, b, .frame v f f' :: l =>
    (b = true → starts v f → f'.flags.testBit 4 = false → ∃ g, acc.head? = some g ∧ f'.dts - f.dts = g.2.dts - g.1.dts) ∧ Resumes ((f, f') :: acc) false l
  | acc, _, .reset :: l => Resumes acc false l
  | acc, _, .back n :: l => Resumes (acc.filter fun x => x.1.id < n) true l

/-- The track does not connect again. -/
def Stays : List Seen → Prop
  | [] => True
  | .back _ :: _ => False
  | _ :: l => Stays l

/-- Frames are lost only when the track connects again for the last time. -/
def Loses : List (Frame × Frame) → List Seen → Prop
  | _, [] => True
  | acc, .frame _ f f' :: l => Loses ((f, f') :: acc) l
  | acc, .reset :: l => Loses acc l
  | acc, .back n :: l => (∀ x ∈ acc, x.1.id < n) ∧ Loses acc l ∨ Stays l

end Verif.SyncerSpec
