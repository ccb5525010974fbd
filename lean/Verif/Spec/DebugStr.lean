import Verif.Spec.Fmt

/-! # Vocabulary for what `Debug` prints, character by character -/

namespace Verif.Spec

/-- The `Debug` implementation `d` with options `o` writes the text `t` and nothing else: whatever the sink
is and whenever it fails, the calls made are those that write certain texts in turn up to the first
failure, and these texts are the cut up `t`. -/
def Prints (d : Fmt.Dbg) (o : FmtOpts) (t : List Char) : Prop :=
  ∃ ws : List (List Char), ws.flatten = t ∧ ∀ (ω : Type) (sink : Sink ω), d sink o = writeTexts sink ws

/-- Visible ASCII, or a space. -/
def IsPlain (c : Char) : Prop := 0x20 ≤ c.toNat ∧ c.toNat ≤ 0x7E

instance (c : Char) : Decidable (IsPlain c) := inferInstanceAs (Decidable (_ ∧ _))

/-- How `Debug` writes a character of a text, when the characters beyond ASCII to show as they are are given
by `shown`. -/
def escapeChar (shown : Char → Bool) (c : Char) : List Char :=
  if c = '\x00' then ['\\', '0']
  else if c = '\t' then ['\\', 't']
  else if c = '\r' then ['\\', 'r']
  else if c = '\n' then ['\\', 'n']
  else if c = '\\' then ['\\', '\\']
  else if c = '"' then ['\\', '"']
  else if IsPlain c ∨ shown c then [c]
  else ['\\', 'u', '{'] ++ Nat.toDigits 16 c.toNat ++ ['}']

/-- A text in quotes. -/
def quoted (shown : Char → Bool) (cs : List Char) : List Char :=
  ['"'] ++ cs.flatMap (escapeChar shown) ++ ['"']

/-- The digits of a number: decimal, or hexadecimal for `{:x?}` and `{:X?}`. -/
def digits (o : FmtOpts) (n : Nat) : List Char :=
  match o.debugHex with
  | none => Nat.toDigits 10 n
  | some .lower => Nat.toDigits 16 n
  | some .upper => (Nat.toDigits 16 n).map Char.toUpper

/-- Digits after a prefix, filled up to the width: with zeros between the two, or with the fill character,
on the left unless asked otherwise. -/
def padNumber (o : FmtOpts) (pre ds : List Char) : List Char :=
  let missing := o.width.getD 0 - (pre ++ ds).length
  if o.zeroPad then pre ++ List.replicate missing '0' ++ ds
  else match o.align with
    | some .left => pre ++ ds ++ List.replicate missing o.fill
    | some .center => List.replicate (missing / 2) o.fill ++ (pre ++ ds) ++ List.replicate (missing - missing / 2) o.fill
    | _ => List.replicate missing o.fill ++ (pre ++ ds)

/-- A number, with its sign if asked for, and `0x` in the alternate hexadecimal form. -/
def numberText (o : FmtOpts) (n : Nat) : List Char :=
  padNumber o ((if o.signPlus then ['+'] else []) ++ (if o.alternate ∧ o.debugHex ≠ none then ['0', 'x'] else []))
    (digits o n)

/-- Indent every line by four spaces; `start` says that a line begins here. -/
def indentText (start : Bool) : List Char → List Char
  | [] => []
  | c :: cs => (if start then [' ', ' ', ' ', ' '] else []) ++ c :: indentText (c == '\n') cs

/-- What is printed for a string with the text `cs`. -/
def stringText (shown : Char → Bool) (o : FmtOpts) (cs : List Char) : List Char :=
  if o.alternate then
    "ArrayString {\n".toList ++ indentText true ("array: ".toList ++ quoted shown cs ++ ",\n".toList) ++
      indentText true ("size: ".toList ++ numberText o (byteLen cs) ++ ",\n".toList) ++ "}".toList
  else "ArrayString { array: ".toList ++ quoted shown cs ++ ", size: ".toList ++ numberText o (byteLen cs) ++ " }".toList

/-- What is printed for a value that wraps another one. -/
def wrappedText (name : List Char) (o : FmtOpts) (inner : List Char) : List Char :=
  if o.alternate then name ++ "(\n".toList ++ indentText true (inner ++ ",\n".toList) ++ ")".toList
  else name ++ "(".toList ++ inner ++ ")".toList

end Verif.Spec
