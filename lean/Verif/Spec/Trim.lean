import Verif.Spec.Text

/-! # Specification of trimming -/

namespace Verif.Spec

/-- The code points with the Unicode property `White_Space` (PropList.txt), listed one by one. -/
def whiteSpace : List Nat :=
  [0x0009, 0x000A, 0x000B, 0x000C, 0x000D, 0x0020, 0x0085, 0x00A0, 0x1680,
   0x2000, 0x2001, 0x2002, 0x2003, 0x2004, 0x2005, 0x2006, 0x2007, 0x2008, 0x2009, 0x200A,
   0x2028, 0x2029, 0x202F, 0x205F, 0x3000]

/-- `c` is a white space character. -/
def IsWhite (c : Char) : Prop := c.toNat ∈ whiteSpace

instance (c : Char) : Decidable (IsWhite c) := inferInstanceAs (Decidable (_ ∈ _))

/-- `out` is `cs` with its leading and trailing white space removed: only white space is cut off on
each side, and what is left neither starts nor ends with white space. -/
def Trimmed (cs out : List Char) : Prop :=
  (∃ pre post, cs = pre ++ out ++ post ∧ (∀ c ∈ pre, IsWhite c) ∧ (∀ c ∈ post, IsWhite c)) ∧
  (∀ c, out.head? = some c → ¬ IsWhite c) ∧ (∀ c, out.getLast? = some c → ¬ IsWhite c)

/-- Executable trimming. -/
def trimText (cs : List Char) : List Char :=
  ((cs.dropWhile (fun c => decide (IsWhite c))).reverse.dropWhile (fun c => decide (IsWhite c))).reverse

end Verif.Spec
