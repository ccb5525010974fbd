import Verif.Spec.Text

/-! # Specification of UTF-16

Written from the Unicode standard: the encoding of a character, and how an arbitrary sequence of
16-bit units decomposes into characters and unpaired surrogates. -/

namespace Verif.Spec

/-- The UTF-16 encoding of a character. -/
def utf16Char (c : Char) : List UInt16 :=
  if c.toNat < 0x10000 then [UInt16.ofNat c.toNat]
  else [UInt16.ofNat (0xD800 + (c.toNat - 0x10000) / 1024), UInt16.ofNat (0xDC00 + (c.toNat - 0x10000) % 1024)]

/-- The UTF-16 encoding of a text. -/
def utf16 (cs : List Char) : List UInt16 := cs.flatMap utf16Char

/-- A leading (high) surrogate. -/
def IsHigh (u : UInt16) : Prop := 0xD800 ≤ u.toNat ∧ u.toNat ≤ 0xDBFF
/-- A trailing (low) surrogate. -/
def IsLow (u : UInt16) : Prop := 0xDC00 ≤ u.toNat ∧ u.toNat ≤ 0xDFFF

instance (u : UInt16) : Decidable (IsHigh u) := inferInstanceAs (Decidable (_ ∧ _))
instance (u : UInt16) : Decidable (IsLow u) := inferInstanceAs (Decidable (_ ∧ _))

/-- A piece of a sequence of 16-bit units: an encoded character or a surrogate without partner. -/
inductive Seg where
  | chr (c : Char)
  | lone (u : UInt16)
deriving DecidableEq

/-- The units a piece stands for. -/
def Seg.units : Seg → List UInt16
  | .chr c => utf16Char c
  | .lone u => [u]

/-- The units a sequence of pieces stands for. -/
def segUnits (segs : List Seg) : List UInt16 := segs.flatMap Seg.units

/-- The pieces are legitimate: every `lone` is a surrogate, and no `lone` leading surrogate is
directly followed by a `lone` trailing one (together they would be a character). -/
def SegsOk : List Seg → Prop
  | [] => True
  | .chr _ :: segs => SegsOk segs
  | .lone u :: segs => (IsHigh u ∨ IsLow u) ∧
      (IsHigh u → ∀ v rest, segs = .lone v :: rest → ¬ IsLow v) ∧ SegsOk segs

/-- `segs` is the decomposition of the units `l`.  It exists and is unique (`exists_segments`,
`Segments.unique`). -/
def Segments (l : List UInt16) (segs : List Seg) : Prop := segUnits segs = l ∧ SegsOk segs

/-- `l` is valid UTF-16: it encodes some text. -/
def ValidUtf16 (l : List UInt16) : Prop := ∃ cs, utf16 cs = l

/-- A piece as a character, with U+FFFD in place of an unpaired surrogate. -/
def Seg.lossy : Seg → Char
  | .chr c => c
  | .lone _ => Char.ofNat 0xFFFD

/-- The characters before the first unpaired surrogate. -/
def leadingChars : List Seg → List Char
  | .chr c :: segs => c :: leadingChars segs
  | _ => []

end Verif.Spec
