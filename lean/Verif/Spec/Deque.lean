/-! # A double-ended queue -/

namespace Verif.Spec

/-- Which end of the queue to take from. -/
inductive End where
  | front
  | back
deriving DecidableEq, Repr

/-- Take one item from an end, if there is one. -/
def takeEnd {α : Type} : End → List α → Option α × List α
  | .front, [] => (none, [])
  | .front, c :: cs => (some c, cs)
  | .back, cs => (cs.getLast?, cs.dropLast)

/-- Take from the given ends in turn: the answers, and what is left. -/
def takeEnds {α : Type} : List End → List α → List (Option α) × List α
  | [], cs => ([], cs)
  | e :: es, cs =>
    let (o, cs) := takeEnd e cs
    let (os, cs) := takeEnds es cs
    (o :: os, cs)

end Verif.Spec
