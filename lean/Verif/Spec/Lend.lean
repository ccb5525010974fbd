import Verif.Spec.Several

/-!
# A string among others, whose texts are passed to its calls

What `Spec/Several` has, and calls on the own string that take the text of another string, or a text that is in
memory.
-/

namespace Verif.Spec

/-- The calls that take one text, without it. -/
inductive TextCall where
  | tryFromStr
  | parse
  | fromStrTruncate
  | from_
  | tryPushStr
  | pushStrTruncate
  | tryInsertStr (idx : Nat)
  | insertStrTruncate (idx : Nat)
  | replaceRange (r : RangeB)
  | add
  | writeStr
  | eqStr

/-- The call, with the text. -/
def TextCall.op (w : List Char) : TextCall → Op
  | .tryFromStr => .tryFromStr w
  | .parse => .parse w
  | .fromStrTruncate => .fromStrTruncate w
  | .from_ => .from_ w
  | .tryPushStr => .tryPushStr w
  | .pushStrTruncate => .pushStrTruncate w
  | .tryInsertStr i => .tryInsertStr i w
  | .insertStrTruncate i => .insertStrTruncate i w
  | .replaceRange r => .replaceRange r w
  | .add => .add w
  | .writeStr => .writeStr w
  | .eqStr => .eqStr w

/-- What may be done. -/
inductive Act where
  | deed (d : Deed)
  | give (c : TextCall) (address : Nat)                  -- with `.as_str()` of the string at the address
  | lend (c : TextCall) (address : Nat) (w : List Char)   -- with the text `w`, which is at the address

/-- The answer, and the own text afterwards. -/
def Act.step (N : Nat) (others : Nat → List Char) (a : Act) (own : List Char) : Res Failure Told × List Char :=
  match a with
  | .deed d => d.step N others own
  | .give c o => (Deed.call (c.op (others o))).step N others own
  | .lend c _ w => (Deed.call (c.op w)).step N others own

def Act.steps (N : Nat) (others : Nat → List Char) : List Act → List Char → List (Res Failure Told) × List Char
  | [], own => ([], own)
  | a :: as, own =>
    ((a.step N others own).1 :: (Act.steps N others as (a.step N others own).2).1,
      (Act.steps N others as (a.step N others own).2).2)

end Verif.Spec
