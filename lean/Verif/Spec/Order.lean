import Verif.Spec.Text

/-! # Ordering of texts by Unicode scalar values -/

namespace Verif.Spec

/-- Lexicographic comparison of two texts, character by character by scalar value. -/
def cmpText : List Char → List Char → Ordering
  | [], [] => .eq
  | [], _ :: _ => .lt
  | _ :: _, [] => .gt
  | c :: cs, d :: ds =>
    if c.toNat < d.toNat then .lt
    else if d.toNat < c.toNat then .gt
    else cmpText cs ds

end Verif.Spec
