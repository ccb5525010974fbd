import Verif.Model.DrainIter

/-! # Vocabulary for iterators seen as queues -/

namespace Verif.Spec
open Verif

variable {α β γ κ : Type}

/-- The text as seen from one end. -/
def facing : End → List Char → List Char
  | .front, cs => cs
  | .back, cs => cs.reverse

/-- The program in state `q` served by a queue holding `cs`; `none` if it never finishes. -/
def serve (c : κ → Move κ α) (q : κ) (cs : List Char) : Option (α × List Char) :=
  match c q with
  | .stop a => some (a, cs)
  | .ask e k => serve c (k (takeEnd e cs).1) (takeEnd e cs).2
  | .look k => serve c (k (utf8 cs)) cs
partial_fixpoint

/-- Go through a list until told to stop; what is left of it. -/
def foldFlow (f : β → Char → Flow γ β) : β → List Char → Flow γ β × List Char
  | b, [] => (.go b, [])
  | b, c :: l =>
    match f b c with
    | .go b => foldFlow f b l
    | .stop x => (.stop x, l)
    | .panic => (.panic, l)

end Verif.Spec
