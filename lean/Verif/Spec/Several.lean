import Verif.Spec.History
import Verif.Spec.Order

/-!
# A string among others

A program has one string of its own, which it may change, and others at known places, which it can only look
at.
-/

namespace Verif.Spec

/-- Which string: the own one, or the one at an address. -/
inductive Place where
  | own
  | at (address : Nat)
deriving DecidableEq, Repr

/-- What may be done. -/
inductive Deed where
  | call (op : Op)
  | eq (p q : Place)
  | ne (p q : Place)
  | cmp (p q : Place)
  | partialCmp (p q : Place)
  | lt (p q : Place)
  | le (p q : Place)
  | gt (p q : Place)
  | ge (p q : Place)
  | clone (p : Place)
  | assign (p : Place)
  | debug (p : Place)
  | serialize (p : Place)
  | toSql (p : Place)

/-- The strings that a statement looks at. -/
def Deed.places : Deed → List Place
  | .call _ => []
  | .eq p q | .ne p q | .cmp p q | .partialCmp p q | .lt p q | .le p q | .gt p q | .ge p q => [p, q]
  | .clone p | .assign p | .debug p | .serialize p | .toSql p => [p]

/-- The statements that only look at strings. -/
def Deed.looks : Deed → Bool
  | .call _ | .assign _ => false
  | _ => true

/-- What a statement tells. -/
inductive Told where
  | out (o : Out)
  | partialOrdering (o : Option Ordering)
  | fields (text : Bytes) (size : Nat)
deriving DecidableEq, Repr

/-- The text of a string, when the own one has the text `own` and the others are `others`. -/
def Place.text (own : List Char) (others : Nat → List Char) : Place → List Char
  | .own => own
  | .at o => others o

/-- The answer, and the own text afterwards. -/
def Deed.step (N : Nat) (others : Nat → List Char) (s : Deed) (own : List Char) : Res Failure Told × List Char :=
  let x : Place → List Char := Place.text own others
  match s with
  | .call op =>
    (match (Spec.step N op own).1 with
      | .returned o => .ok (.out o)
      | .failed e => .err e
      | .panicked => .panic, (Spec.step N op own).2)
  | .eq p q => (.ok (.out (.bool (decide (x p = x q)))), own)
  | .ne p q => (.ok (.out (.bool (decide (x p ≠ x q)))), own)
  | .cmp p q => (.ok (.out (.ordering (cmpText (x p) (x q)))), own)
  | .partialCmp p q => (.ok (.partialOrdering (some (cmpText (x p) (x q)))), own)
  | .lt p q => (.ok (.out (.bool (decide (cmpText (x p) (x q) = .lt)))), own)
  | .le p q => (.ok (.out (.bool (decide (cmpText (x p) (x q) ≠ .gt)))), own)
  | .gt p q => (.ok (.out (.bool (decide (cmpText (x p) (x q) = .gt)))), own)
  | .ge p q => (.ok (.out (.bool (decide (cmpText (x p) (x q) ≠ .lt)))), own)
  | .clone p | .serialize p | .toSql p => (.ok (.out (.str (utf8 (x p)))), own)
  | .assign p => (.ok (.out .unit), x p)
  | .debug p => (.ok (.fields (utf8 (x p)) (byteLen (x p))), own)

def Deed.steps (N : Nat) (others : Nat → List Char) : List Deed → List Char → List (Res Failure Told) × List Char
  | [], own => ([], own)
  | s :: ss, own =>
    ((s.step N others own).1 :: (Deed.steps N others ss (s.step N others own).2).1,
      (Deed.steps N others ss (s.step N others own).2).2)

end Verif.Spec
