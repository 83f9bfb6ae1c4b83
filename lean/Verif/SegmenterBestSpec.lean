/-!
# Where segments end

Of the times at which a segment may end, each with the span of the times at which the tracks would be cut, the spans that are not more than a margin above the least count; of these the one closest to the
configured duration is the best. Of the model nothing is used.
-/

namespace Verif.SegmenterBestSpec

/-- A time, and the first and the last time of a cut. -/
structure Opt where
  pts : Int
  lo : Int
  hi : Int

/-- The time that is used: the middle, if the span is small. -/
def Opt.time (maxSpan : Int) (o : Opt) : Int := if o.hi - o.lo < maxSpan then (o.hi + o.lo).tdiv 2 else o.pts

def Counts (l : List Opt) (margin : Int) (o : Opt) : Prop := ∀ y ∈ l, o.hi - o.lo ≤ y.hi - y.lo + margin

/-- `t` is a best time. -/
def Best (l : List Opt) (margin maxSpan goal t : Int) : Prop :=
  (∃ o ∈ l, Counts l margin o ∧ t = o.time maxSpan) ∧ ∀ o ∈ l, Counts l margin o → (t - goal).natAbs ≤ (o.time maxSpan - goal).natAbs

end Verif.SegmenterBestSpec
