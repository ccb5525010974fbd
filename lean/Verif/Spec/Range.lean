import Verif.Model.ArrayString

/-! # What a pair of range bounds denotes

Unbounded arithmetic: no wrapping, no saturation. -/

namespace Verif.Spec
open Verif

/-- First byte position in the range. -/
def startOf (r : RangeB) : Nat :=
  match r.start with
  | .included t => t
  | .excluded t => t + 1
  | .unbounded => 0

/-- First byte position after the range, on a text of `len` bytes. -/
def endOf (r : RangeB) (len : Nat) : Nat :=
  match r.stop with
  | .included t => t + 1
  | .excluded t => t
  | .unbounded => len

/-- The bound's value is a `usize`. -/
def BoundOk : Bound → Prop
  | .included t => t ≤ usizeMax
  | .excluded t => t ≤ usizeMax
  | .unbounded => True

/-- The range's bounds are `usize` values. -/
def RangeOk (r : RangeB) : Prop := BoundOk r.start ∧ BoundOk r.stop

/-- The range lies inside a text of `len` bytes. -/
def RangeInside (r : RangeB) (len : Nat) : Prop := startOf r ≤ endOf r len ∧ endOf r len ≤ len

/-- Both ends of the range are character boundaries of the text. -/
def RangeBoundary (r : RangeB) (cs : List Char) : Prop :=
  IsBoundary cs (startOf r) ∧ IsBoundary cs (endOf r (byteLen cs))

end Verif.Spec
