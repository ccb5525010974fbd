/-!
# Specification vocabulary: texts, their UTF-8 bytes, and prefixes that fit

Nothing here refers to the model.  A text is a `List Char`; Lean's `Char` is a Unicode scalar
value, exactly like Rust's `char`.  The UTF-8 bytes of a text are given by Lean core's encoder.
-/

namespace Verif.Spec

/-- A sequence of bytes. -/
abbrev Bytes := List UInt8

/-- The UTF-8 encoding of a text (Lean core's `String.utf8EncodeChar`, character by character). -/
def utf8 (cs : List Char) : Bytes := cs.flatMap String.utf8EncodeChar

/-- Number of bytes a text occupies in UTF-8. -/
def byteLen (cs : List Char) : Nat := (cs.map Char.utf8Size).sum

/-- The characters of a text that begins at byte offset `off`, with their byte offsets. -/
def indexed : Nat → List Char → List (Nat × Char)
  | _, [] => []
  | off, c :: cs => (off, c) :: indexed (off + c.utf8Size) cs

/-- `pre` is the longest prefix of `cs`, in whole characters, that takes at most `n` bytes:
it is a prefix, it fits, and the next character (if any) would not fit any more. -/
def LongestFit (n : Nat) (cs pre : List Char) : Prop :=
  ∃ post, cs = pre ++ post ∧ byteLen pre ≤ n ∧
    ∀ c rest, post = c :: rest → n < byteLen pre + c.utf8Size

/-- Byte offset `i` of the text `cs` is a character boundary, and cuts it into `pre` and `post`. -/
def CutAt (cs : List Char) (i : Nat) (pre post : List Char) : Prop :=
  cs = pre ++ post ∧ byteLen pre = i

/-- Byte offset `i` falls on a character boundary of `cs`. -/
def IsBoundary (cs : List Char) (i : Nat) : Prop := ∃ pre post, CutAt cs i pre post

/-- Executable version of `LongestFit` (they agree: `longestFit_takeFit`, `LongestFit.unique`). -/
def takeFit : Nat → List Char → List Char
  | _, [] => []
  | n, c :: cs => if c.utf8Size ≤ n then c :: takeFit (n - c.utf8Size) cs else []

/-- Executable version of `CutAt`: cut `cs` at byte offset `i`, if that is a boundary. -/
def cutAt : List Char → Nat → Option (List Char × List Char)
  | cs, 0 => some ([], cs)
  | [], _ + 1 => none
  | c :: cs, i + 1 =>
    if c.utf8Size ≤ i + 1 then
      match cutAt cs (i + 1 - c.utf8Size) with
      | some (a, b) => some (c :: a, b)
      | none => none
    else none

end Verif.Spec
