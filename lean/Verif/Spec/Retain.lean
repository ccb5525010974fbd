import Verif.Spec.Text

/-! # Filtering a text with a stateful predicate -/

namespace Verif.Spec

/-- Call the predicate `f` once on every character, first to last, threading its state; collect the
accepted characters and the final state.  `none` if a call panics. -/
def keep {φ : Type} (f : φ → Char → Option (Bool × φ)) : φ → List Char → Option (List Char × φ)
  | q, [] => some ([], q)
  | q, c :: cs =>
    match f q c with
    | none => none
    | some (b, q) =>
      match keep f q cs with
      | none => none
      | some (out, q) => some (if b then c :: out else out, q)

end Verif.Spec
