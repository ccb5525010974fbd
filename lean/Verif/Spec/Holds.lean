import Verif.Model.ArrayString

/-! # What it means for an `ArrayString` to hold a text -/

namespace Verif
open Spec

/-- The string `s` holds exactly the text `cs`: its buffer has `N` bytes, its length is at most the
capacity, and the bytes up to its length are the UTF-8 encoding of `cs`.  (Bytes past the length are
unconstrained.)  Such a `cs` is unique (`Holds.unique`). -/
def Holds {N : Nat} (s : ArrayString N) (cs : List Char) : Prop :=
  s.array.length = N ∧ s.size.toNat ≤ N ∧ s.array.take s.size.toNat = utf8 cs

instance {N : Nat} (s : ArrayString N) (cs : List Char) : Decidable (Holds s cs) :=
  inferInstanceAs (Decidable (_ ∧ _ ∧ _))

end Verif
