import Verif.Model.CoreStr
import Verif.Model.Traits

/-!
# `Debug` of `str` and of `u8`

Standard library behaviour (`core/src/fmt/mod.rs`, `core/src/fmt/num.rs`, `core/src/char/methods.rs`,
`core/src/escape.rs`), written down as in its source; not code of the repository, which calls them in
implementations.rs:94-106.  The two Unicode tables are parameters.
-/

namespace Verif.Core
open Verif

variable {ω ε : Type}

/-- The tables behind `char::is_grapheme_extended` and `core::unicode::printable::is_printable`. -/
structure Tables where
  graphemeExtended : Char → Bool
  printable : Char → Bool

/-! ## escape.rs, char/methods.rs -/

/-- `HEX_DIGITS`. -/
def hexDigits : Bytes := lit "0123456789abcdef"

/-- `HEX_DIGITS[(v & 15) as usize]`. -/
def hexDigit (v : Nat) : UInt8 := hexDigits[v &&& 15]'(Nat.lt_of_le_of_lt Nat.and_le_right (by decide))

/-- `u32::leading_zeros`, of a number that is not zero. -/
def leadingZeros (v : Nat) : Nat := 31 - v.log2

/-- `escape_unicode(c)`: the digits are put at fixed places of an array of ten bytes, `\u{` before the
first one needed, and the array is used from there. -/
def escapeUnicode (c : Char) : Bytes :=
  let v := c.toNat
  let start := leadingZeros (v ||| 1) / 4 - 2
  let out : Bytes := [0, 0, 0, hexDigit (v >>> 20), hexDigit (v >>> 16), hexDigit (v >>> 12), hexDigit (v >>> 8),
    hexDigit (v >>> 4), hexDigit v, 125]
  (((out.set start 92).set (start + 1) 117).set (start + 2) 123).drop start

/-- `EscapeDebug`: bytes, or the character itself. -/
inductive EscapeDebug where
  | bytes (b : Bytes)
  | char (c : Char)
deriving DecidableEq

/-- `EscapeDebug::len`. -/
def EscapeDebug.len : EscapeDebug → Nat
  | .bytes b => b.length
  | .char _ => 1

/-- `<EscapeDebug as Display>::fmt`. -/
def EscapeDebug.display (sink : Sink ω) : EscapeDebug → M ω FmtError Unit
  | .bytes b => sink.writeStr b
  | .char c => Fmt.writeChar sink c

/-- `char::escape_debug_ext` with the arguments that `str` uses: grapheme extenders and double quotes are
escaped, single quotes are not. -/
def escapeDebugExt (t : Tables) (c : Char) : EscapeDebug :=
  if c = '\x00' then .bytes [92, 48]
  else if c = '\t' then .bytes [92, 116]
  else if c = '\r' then .bytes [92, 114]
  else if c = '\n' then .bytes [92, 110]
  else if c = '\\' then .bytes [92, 92]
  else if c = '"' then .bytes [92, 34]
  else if t.graphemeExtended c then .bytes (escapeUnicode c)
  else if t.printable c then .char c
  else .bytes (escapeUnicode c)

/-! ## fmt/mod.rs: `<str as Debug>::fmt` -/

/-- `needs_escape`. -/
def needsEscape (b : UInt8) : Bool := b > 0x7E || b < 0x20 || b == 92 || b == 34

/-- The body of the loop for one character that is not plain ASCII: what has not been written yet is
`self[start..stop]`. -/
def debugStrChar (t : Tables) (sink : Sink ω) (self : Bytes) (c : Char) (start stop : Nat) :
    M ω FmtError (Nat × Nat) := do
  let esc := escapeDebugExt t c
  let next ← M.lift (addUsize stop (lenUtf8 c.val))
  if esc.len ≠ 1 then do
    let s ← M.lift (Str.index self start stop)
    sink.writeStr s
    esc.display sink
    pure (next, next)
  else pure (start, next)

/-- The loop `while rest.len() > 0`, which returns `printable_range`; `fuel` bounds its rounds. -/
def debugStrLoop (t : Tables) (sink : Sink ω) (self : Bytes) :
    Nat → Bytes → Nat → Nat → M ω FmtError (Nat × Nat)
  | 0, _, _, _ => M.lift .diverge
  | fuel + 1, rest, start, stop =>
    if rest.length > 0 then
      match rest.findIdx? needsEscape with
      | none => do
        let stop ← M.lift (addUsize stop rest.length)
        pure (start, stop)
      | some p => do
        let stop ← M.lift (addUsize stop p)
        let rest ← M.lift (Str.getUnchecked rest p rest.length)
        let (o, rest) ← M.lift (charsNext rest)
        match o with
        | none => debugStrLoop t sink self fuel rest start stop
        | some c => do
          let (start, stop) ← debugStrChar t sink self c start stop
          debugStrLoop t sink self fuel rest start stop
    else pure (start, stop)

/-- `<str as Debug>::fmt`. -/
def debugStr (t : Tables) (s : Bytes) : Fmt.Dbg := fun sink _ => do
  Fmt.writeChar sink '"'
  let (start, stop) ← debugStrLoop t sink s (s.length + 1) s 0 0
  let last ← M.lift (Str.index s start stop)
  sink.writeStr last
  Fmt.writeChar sink '"'

/-! ## fmt/num.rs: `<u8 as Debug>::fmt` -/

/-- The sign and the prefix, if there are any. -/
def writePrefix (sink : Sink ω) (sign : Option Char) (pre : Option Bytes) : M ω FmtError Unit := do
  match sign with
  | some c => Fmt.writeChar sink c
  | none => pure ()
  match pre with
  | some p => sink.writeStr p
  | none => pure ()

/-- `Formatter::pad_integral(true, prefix, buf)`, for a number that is not negative. -/
def padIntegral (sink : Sink ω) (o : FmtOpts) (pre buf : Bytes) : M ω FmtError Unit :=
  let sign := if o.signPlus then some '+' else none
  let pre' := if o.alternate then some pre else none
  let width := buf.length + (if o.signPlus then 1 else 0) + (if o.alternate then (Str.chars pre).length else 0)
  let min := o.width.getD 0
  if width ≥ min then do
    writePrefix sink sign pre'
    sink.writeStr buf
  else if o.zeroPad then do
    writePrefix sink sign pre'
    Fmt.writeFill sink '0' (min - width)
    sink.writeStr buf
  else do
    let (before, after) := Fmt.splitPadding (some (o.align.getD .right)) (min - width)
    Fmt.writeFill sink o.fill before
    writePrefix sink sign pre'
    sink.writeStr buf
    Fmt.writeFill sink o.fill after

/-- The digits of a `u8` in decimal: two from the table if there are two or more, then the one left. -/
def decimalU8 (n : UInt8) : Bytes :=
  let v := n.toNat
  let pair := if v > 9 then [UInt8.ofNat (48 + v % 100 / 10), UInt8.ofNat (48 + v % 100 % 10)] else []
  let left := if v > 9 then v / 100 else v
  (if left ≠ 0 ∨ v = 0 then [UInt8.ofNat (48 + left)] else []) ++ pair

/-- One digit of `LowerHex` or `UpperHex`; `a` is the letter for ten. -/
def hexDigitU8 (a x : Nat) : UInt8 := UInt8.ofNat (if x < 10 then 48 + x else a + (x - 10))

/-- The digits of a `u8` in hexadecimal, from the last one to the first. -/
def hexU8 (a : Nat) (n : UInt8) : Bytes :=
  let v := n.toNat
  if v / 16 = 0 then [hexDigitU8 a v] else [hexDigitU8 a (v / 16), hexDigitU8 a (v % 16)]

/-- `<u8 as Debug>::fmt`. -/
def debugU8 (n : UInt8) : Fmt.Dbg := fun sink o =>
  match o.debugHex with
  | some .lower => padIntegral sink o [48, 120] (hexU8 97 n)
  | some .upper => padIntegral sink o [48, 120] (hexU8 65 n)
  | none => padIntegral sink o [] (decimalU8 n)

end Verif.Core
