import Verif.Model.Traits

/-! # The byte range a `u8` index denotes -/

namespace Verif.Spec
open Verif

/-- First byte and first byte after, on a text of `len` bytes. -/
def idxRange (len : Nat) : IdxU8 → Nat × Nat
  | .range a b => (a.toNat, b.toNat)
  | .from_ a => (a.toNat, len)
  | .to b => (0, b.toNat)
  | .full => (0, len)
  | .toInclusive b => (0, b.toNat + 1)
  | .inclusive a b _ => (a.toNat, b.toNat + 1)

/-- The range is a valid slice of the text: in order, with both ends on character boundaries (hence
within the text). -/
def SliceOk (cs : List Char) (r : Nat × Nat) : Prop :=
  r.1 ≤ r.2 ∧ IsBoundary cs r.1 ∧ IsBoundary cs r.2

/-- The slice of the text, with what is before and after it. -/
def SliceAt (cs : List Char) (r : Nat × Nat) (p m q : List Char) : Prop :=
  cs = p ++ m ++ q ∧ byteLen p = r.1 ∧ byteLen (p ++ m) = r.2

end Verif.Spec
