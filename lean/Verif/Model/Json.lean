import Verif.Model.Integration

/-! # JSON strings as written and read by `serde_json` (not code of the repository)

An example of a format whose strings cannot always be lent. -/

namespace Verif.Json
open Verif Spec

/-- A lower case hexadecimal digit. -/
def hexDigit (n : Nat) : UInt8 := UInt8.ofNat (if n < 10 then 48 + n else 87 + n)

/-- The value of a hexadecimal digit. -/
def hexVal (b : UInt8) : Option Nat :=
  let n := b.toNat
  if 48 ≤ n ∧ n ≤ 57 then some (n - 48)
  else if 97 ≤ n ∧ n ≤ 102 then some (n - 87)
  else if 65 ≤ n ∧ n ≤ 70 then some (n - 55)
  else none

/-- The value of four hexadecimal digits. -/
def hex4 (a b c d : UInt8) : Option Nat := do
  some ((← hexVal a) * 4096 + (← hexVal b) * 256 + (← hexVal c) * 16 + (← hexVal d))

/-- Bytes which must be escaped: the quote, the backslash and control characters
(`serde_json/src/ser.rs`, table `ESCAPE`). -/
def special (b : UInt8) : Bool := b.toNat < 32 || b == 34 || b == 92

/-- How `serde_json` writes one byte of a string (`format_escaped_str_contents`). -/
def escapeByte (b : UInt8) : Bytes :=
  if b = 34 then [92, 34]
  else if b = 92 then [92, 92]
  else if b = 8 then [92, 98]
  else if b = 9 then [92, 116]
  else if b = 10 then [92, 110]
  else if b = 12 then [92, 102]
  else if b = 13 then [92, 114]
  else if b.toNat < 32 then [92, 117, 48, 48, hexDigit (b.toNat / 16), hexDigit (b.toNat % 16)]
  else [b]

/-- `serde_json::to_string` of a `str`. -/
def write (s : Bytes) : Bytes := [34] ++ s.flatMap escapeByte ++ [34]

/-- Read the rest of a string, after the opening quote: its contents, whether it had an escape (so
that it had to be copied to a scratch buffer), and what follows the closing quote
(`serde_json/src/read.rs`, `SliceRead::parse_str_bytes` and `parse_escape`). -/
def readRest : Bytes → Option (Bytes × Bool × Bytes)
  | 34 :: r => some ([], false, r)
  | 92 :: 117 :: a :: b :: c :: d :: r =>
    match hex4 a b c d with
    | none => none
    | some n =>
      if 0xDC00 ≤ n ∧ n ≤ 0xDFFF then none
      else if 0xD800 ≤ n ∧ n ≤ 0xDBFF then
        match r with
        | 92 :: 117 :: a :: b :: c :: d :: r =>
          match hex4 a b c d with
          | none => none
          | some m =>
            if 0xDC00 ≤ m ∧ m ≤ 0xDFFF then
              (readRest r).map fun p =>
                (Str.encodeUtf8 (Char.ofNat ((n - 0xD800) * 1024 + (m - 0xDC00) + 0x10000)) ++ p.1, true, p.2.2)
            else none
        | _ => none
      else (readRest r).map fun p => (Str.encodeUtf8 (Char.ofNat n) ++ p.1, true, p.2.2)
  | 92 :: e :: r =>
    match (if e = 34 then some 34 else if e = 92 then some 92 else if e = 47 then some 47
      else if e = 98 then some 8 else if e = 102 then some 12 else if e = 110 then some 10
      else if e = 114 then some 13 else if e = 116 then some 9 else none : Option UInt8) with
    | none => none
    | some b => (readRest r).map fun p => (b :: p.1, true, p.2.2)
  | b :: r => if special b then none else (readRest r).map fun p => (b :: p.1, p.2.1, p.2.2)
  | [] => none

/-- JSON white space. -/
def isSpace (b : UInt8) : Bool := b == 32 || b == 9 || b == 10 || b == 13

/-- Errors of `serde_json`. -/
inductive JsonError where
  | syntax
  | invalidType
  | invalidValue
deriving DecidableEq, Repr

/-- `serde_json::from_str(doc)` asked for a string: `visit_borrowed_str` if the string had no escape,
else `visit_str`.  (Other JSON values are lumped together as syntax errors; so are
trailing characters, which `serde_json` reports after visiting.) -/
def fromStr (doc : Bytes) : Deserializer JsonError where
  visit :=
    match doc.dropWhile isSpace with
    | 34 :: r =>
      match readRest r with
      | some (b, escaped, r) =>
        if !r.all isSpace then .err .syntax
        else if escaped then .ok (.str b)
        else .ok (.borrowedStr b)
      | none => .err .syntax
    | _ => .err .syntax
  invalidType := .invalidType
  invalidValue := .invalidValue

/-- `serde_json::from_reader(doc)`: nothing can be borrowed from a reader, it is always `visit_str`. -/
def fromReader (doc : Bytes) : Deserializer JsonError where
  visit :=
    match (fromStr doc).visit with
    | .ok (.borrowedStr b) => .ok (.str b)
    | r => r
  invalidType := .invalidType
  invalidValue := .invalidValue

/-- `serde_json::to_string`. -/
def toString : Serializer JsonError Bytes := ⟨fun s => .ok (write s)⟩

end Verif.Json
