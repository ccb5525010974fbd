import Verif.Model.DrainIter
import Verif.Model.History
import Verif.Spec.Parity

/-!
# The tests of the repository

The side of each test of tests/string_parity.rs with `TestString`, for any capacity instead of 255.
`to_string` of a length or `bool` is left out: numbers are compared, not their digits.
-/

namespace Verif
open Spec ArrayString

variable {N : Nat} {ε ε' α : Type}

/-- `Result::unwrap`. -/
def Res.unwrap : Res ε α → Res ε' α
  | .ok a => .ok a
  | .err _ | .panic => .panic
  | .ub => .ub
  | .diverge => .diverge

/-- string_parity.rs:352-368: the rest of the test `drain`, on `ms`. -/
def parityDrain (r : RangeB) (ms : ArrayString N) : Res Failure (Out × ArrayString N) := do
  let (d, ms) ← (M.mapErr Kind.kind (drain r)).onLocal ms
  let b ← Drain.collectString .front d
  .ok (.drained [] b, ms)

/-- `TestString::try_from_str(s).unwrap()`, in the tests that start with it. -/
def parityStart (N : Nat) (t : ParityTest) (s : List Char) : Res Failure (ArrayString N) :=
  if t.constructs then .ok ArrayString.new else (tryFromStr (utf8 s) : Res OutOfBounds (ArrayString N)).unwrap

/-- The call of the test. -/
def parityCall (t : ParityTest) (s : List Char) (ms : ArrayString N) : Res Failure (Out × ArrayString N) :=
  match t with
  | .drain i => parityDrain ⟨.unbounded, .excluded i⟩ ms
  | t => (exec (t.op s)).onLocal ms

/-- The side of a test with `TestString`. -/
def parityTest (N : Nat) (t : ParityTest) (s : List Char) : Res Failure (Out × Bytes) := do
  let ms ← parityStart N t s
  let (o, ms) ← parityCall t s ms
  let b ← ms.asStr
  .ok (o, b)

/-- string_parity.rs:489-504 `assert`: the normalised sides are equal, and there was no panic on this side. -/
def Passes (std : Option (Out × List Char)) : Res Failure (Out × Bytes) → Prop
  | .ok (o, b) => ∃ cs, std = some (o, cs) ∧ b = utf8 cs
  | .err _ => std = none
  | .panic | .ub | .diverge => False

end Verif
