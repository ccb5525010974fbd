import Verif.Model.Str
import Verif.Spec.Deque

/-!
# The functions of `core` behind `Model/Str`, literally

`Model/Str` gives the functions of `core::str` and `core::char` that the crate calls as plain functions
on byte lists, with divisions and remainders.  Here they are once more as in the source of `core`: with
masks and shifts on `u8`, `u16` and `u32`, signed comparisons, tables, `unwrap_unchecked` and
`char::from_u32_unchecked` (outside their contract: undefined behaviour), and iteration from both ends.
`Props/CoreStr` proves that the two agree.  Not code of the repository; the files cited are those of
`library/core/src`.
-/

namespace Verif.Core
open Verif

variable {ε : Type}

/-! ## str/validations.rs -/

/-- `CONT_MASK`. -/
def contMask : UInt8 := 0x3F

/-- `utf8_first_byte(byte, width)`: `(byte & (0x7F >> width)) as u32`. -/
def utf8FirstByte (byte : UInt8) (width : UInt8) : UInt32 := (byte &&& ((0x7F : UInt8) >>> width)).toUInt32

/-- `utf8_acc_cont_byte(ch, byte)`: `(ch << 6) | (byte & CONT_MASK) as u32`. -/
def utf8AccContByte (ch : UInt32) (byte : UInt8) : UInt32 := (ch <<< 6) ||| (byte &&& contMask).toUInt32

/-- `utf8_is_cont_byte(byte)`: `(byte as i8) < -64`. -/
def utf8IsContByte (byte : UInt8) : Bool := decide (byte.toInt8 < -64)

/-- `bytes.next().unwrap_unchecked()`. -/
def nextUnchecked : Bytes → Res ε (UInt8 × Bytes)
  | [] => .ub
  | x :: b => .ok (x, b)

/-- `bytes.next_back()`. -/
def nextBackByte (b : Bytes) : Option (UInt8 × Bytes) :=
  match b.getLast? with
  | none => none
  | some x => some (x, b.dropLast)

/-- `bytes.next_back().unwrap_unchecked()`. -/
def nextBackUnchecked (b : Bytes) : Res ε (UInt8 × Bytes) :=
  match nextBackByte b with
  | none => .ub
  | some p => .ok p

/-- `next_code_point(bytes)`. -/
def nextCodePoint : Bytes → Res ε (Option UInt32 × Bytes)
  | [] => .ok (none, [])
  | x :: bytes => do
    if x < 128 then return (some x.toUInt32, bytes)
    let init := utf8FirstByte x 2
    let (y, bytes) ← nextUnchecked bytes
    let ch := utf8AccContByte init y
    if x >= 0xE0 then
      let (z, bytes) ← nextUnchecked bytes
      let yz := utf8AccContByte (y &&& contMask).toUInt32 z
      let ch := init <<< 12 ||| yz
      if x >= 0xF0 then
        let (w, bytes) ← nextUnchecked bytes
        let ch := (init &&& 7) <<< 18 ||| utf8AccContByte yz w
        return (some ch, bytes)
      else return (some ch, bytes)
    else return (some ch, bytes)

/-- `next_code_point_reverse(bytes)`. -/
def nextCodePointReverse (bytes : Bytes) : Res ε (Option UInt32 × Bytes) :=
  match nextBackByte bytes with
  | none => .ok (none, [])
  | some (w, bytes) => do
    if w < 128 then return (some w.toUInt32, bytes)
    let (z, bytes) ← nextBackUnchecked bytes
    let ch := utf8FirstByte z 2
    if utf8IsContByte z then
      let (y, bytes) ← nextBackUnchecked bytes
      let ch := utf8FirstByte y 3
      if utf8IsContByte y then
        let (x, bytes) ← nextBackUnchecked bytes
        let ch := utf8FirstByte x 4
        let ch := utf8AccContByte ch y
        let ch := utf8AccContByte ch z
        return (some (utf8AccContByte ch w), bytes)
      else
        let ch := utf8AccContByte ch z
        return (some (utf8AccContByte ch w), bytes)
    else return (some (utf8AccContByte ch w), bytes)

/-- `UTF8_CHAR_WIDTH[byte]`. -/
def utf8CharWidth (byte : UInt8) : Nat :=
  if byte < 0x80 then 1 else if byte < 0xC2 then 0 else if byte < 0xE0 then 2 else if byte < 0xF0 then 3
  else if byte < 0xF5 then 4 else 0

/-- How many bytes at the front, at most `k`, are ASCII. -/
def asciiPrefix : Nat → Bytes → Nat
  | 0, _ => 0
  | _, [] => 0
  | k + 1, x :: b => if x < 128 then asciiPrefix k b + 1 else 0

theorem asciiPrefix_le (k : Nat) (b : Bytes) : asciiPrefix k b ≤ b.length := by
  induction k generalizing b with
  | zero => simp [asciiPrefix]
  | succ k ih => cases b with
    | nil => simp [asciiPrefix]
    | cons x b => have := ih b; simp only [asciiPrefix]; split <;> simp <;> omega

/-- `run_utf8_validation(v).is_ok()`, from index `i`.  The fast path for ASCII (two words at a time, when
suitably aligned) skips some number of ASCII bytes; how many depends on the address of the slice, and is
left to `fast`. -/
def runUtf8Validation (fast : Nat → Nat) (v : Bytes) (i : Nat) : Bool :=
  match h : v[i]? with
  | none => true                                    -- index >= len
  | some first =>
    if first ≥ 128 then
      match utf8CharWidth first with
      | 2 =>
        match v[i + 1]? with
        | none => false
        | some b => if b.toInt8 ≥ -64 then false else runUtf8Validation fast v (i + 2)
      | 3 =>
        match v[i + 1]? with
        | none => false
        | some b =>
          if ¬ ((first = 0xE0 ∧ 0xA0 ≤ b ∧ b ≤ 0xBF) ∨ (0xE1 ≤ first ∧ first ≤ 0xEC ∧ 0x80 ≤ b ∧ b ≤ 0xBF) ∨
                (first = 0xED ∧ 0x80 ≤ b ∧ b ≤ 0x9F) ∨ (0xEE ≤ first ∧ first ≤ 0xEF ∧ 0x80 ≤ b ∧ b ≤ 0xBF)) then false
          else match v[i + 2]? with
            | none => false
            | some c => if c.toInt8 ≥ -64 then false else runUtf8Validation fast v (i + 3)
      | 4 =>
        match v[i + 1]? with
        | none => false
        | some b =>
          if ¬ ((first = 0xF0 ∧ 0x90 ≤ b ∧ b ≤ 0xBF) ∨ (0xF1 ≤ first ∧ first ≤ 0xF3 ∧ 0x80 ≤ b ∧ b ≤ 0xBF) ∨
                (first = 0xF4 ∧ 0x80 ≤ b ∧ b ≤ 0x8F)) then false
          else match v[i + 2]? with
            | none => false
            | some c =>
              if c.toInt8 ≥ -64 then false
              else match v[i + 3]? with
                | none => false
                | some d => if d.toInt8 ≥ -64 then false else runUtf8Validation fast v (i + 4)
      | _ => false
    else
      runUtf8Validation fast v (i + 1 + asciiPrefix (fast i) (v.drop (i + 1)))
termination_by v.length - i
decreasing_by all_goals (have := (List.getElem?_eq_some_iff.1 h).1; omega)

/-! ## str/iter.rs: `Chars` and `CharIndices` -/

/-- `char::from_u32_unchecked(v)`. -/
def charFromU32Unchecked (v : UInt32) : Res ε Char :=
  if h : v.isValidChar then .ok ⟨v, h⟩ else .ub

/-- The option of a code point as an option of a character. -/
def toChar (p : Option UInt32 × Bytes) : Res ε (Option Char × Bytes) :=
  match p with
  | (none, b) => .ok (none, b)
  | (some v, b) => do
    let c ← charFromU32Unchecked v
    return (some c, b)

/-- `Chars::next`. -/
def charsNext (b : Bytes) : Res ε (Option Char × Bytes) := do
  let p ← nextCodePoint b
  toChar p

/-- `Chars::next_back`. -/
def charsNextBack (b : Bytes) : Res ε (Option Char × Bytes) := do
  let p ← nextCodePointReverse b
  toChar p

/-- `struct CharIndices { front_offset, iter }`. -/
structure CharIndices where
  frontOffset : Nat
  iter : Bytes

/-- `CharIndices::next`. -/
def CharIndices.next (k : CharIndices) : Res ε (Option (Nat × Char) × CharIndices) := do
  let preLen := k.iter.length
  let (o, b) ← charsNext k.iter
  match o with
  | none => return (none, ⟨k.frontOffset, b⟩)
  | some ch =>
    let index := k.frontOffset
    let d ← subUsize preLen b.length
    let off ← addUsize k.frontOffset d
    return (some (index, ch), ⟨off, b⟩)

/-- `CharIndices::next_back`. -/
def CharIndices.nextBack (k : CharIndices) : Res ε (Option (Nat × Char) × CharIndices) := do
  let (o, b) ← charsNextBack k.iter
  match o with
  | none => return (none, ⟨k.frontOffset, b⟩)
  | some ch =>
    let index ← addUsize k.frontOffset b.length
    return (some (index, ch), ⟨k.frontOffset, b⟩)

/-- `next` or `next_back` of `Chars`. -/
def charsTake : Spec.End → Bytes → Res ε (Option Char × Bytes)
  | .front, b => charsNext b
  | .back, b => charsNextBack b

/-- Any number of calls of `next` and `next_back` of `Chars`, in the given order. -/
def charsTakes : List Spec.End → Bytes → Res ε (List (Option Char) × Bytes)
  | [], b => .ok ([], b)
  | e :: es, b => do
    let (o, b) ← charsTake e b
    let (os, b) ← charsTakes es b
    return (o :: os, b)

/-- `next` or `next_back` of `CharIndices`. -/
def CharIndices.take : Spec.End → CharIndices → Res ε (Option (Nat × Char) × CharIndices)
  | .front, k => k.next
  | .back, k => k.nextBack

/-- Any number of calls of `next` and `next_back` of `CharIndices`, in the given order. -/
def CharIndices.takes : List Spec.End → CharIndices → Res ε (List (Option (Nat × Char)) × CharIndices)
  | [], k => .ok ([], k)
  | e :: es, k => do
    let (o, k) ← CharIndices.take e k
    let (os, k) ← CharIndices.takes es k
    return (o :: os, k)

/-! ## str/mod.rs -/

/-- `str::is_char_boundary`; `(b as i8) >= -0x40`. -/
def isCharBoundary (b : Bytes) (index : Nat) : Bool :=
  if index = 0 then true
  else if index ≥ b.length then index == b.length
  else decide ((b.getD index 0).toInt8 ≥ -0x40)

/-! ## char/methods.rs -/

/-- `len_utf8(code)`. -/
def lenUtf8 (code : UInt32) : Nat :=
  if code < 0x80 then 1 else if code < 0x800 then 2 else if code < 0x10000 then 3 else 4

/-- `encode_utf8_raw(code, dst)`, as the bytes written. -/
def encodeUtf8 (code : UInt32) : Bytes :=
  match lenUtf8 code with
  | 1 => [code.toUInt8]
  | 2 => [(code >>> 6 &&& 0x1F).toUInt8 ||| 0xC0, (code &&& 0x3F).toUInt8 ||| 0x80]
  | 3 => [(code >>> 12 &&& 0x0F).toUInt8 ||| 0xE0, (code >>> 6 &&& 0x3F).toUInt8 ||| 0x80, (code &&& 0x3F).toUInt8 ||| 0x80]
  | _ => [(code >>> 18 &&& 0x07).toUInt8 ||| 0xF0, (code >>> 12 &&& 0x3F).toUInt8 ||| 0x80,
          (code >>> 6 &&& 0x3F).toUInt8 ||| 0x80, (code &&& 0x3F).toUInt8 ||| 0x80]

/-- unicode/unicode_data.rs `WHITESPACE_MAP`. -/
def whitespaceMap (i : Nat) : UInt8 :=
  if i ≤ 8 then 2 else if i ≤ 10 then 3 else if i ≤ 13 then 1 else if i = 32 then 1 else if i = 40 ∨ i = 41 then 2
  else if i = 47 then 2 else if i = 95 then 2 else if i = 133 then 1 else if i = 160 then 1 else 0

/-- unicode/unicode_data.rs `white_space::lookup`. -/
def whiteSpaceLookup (c : UInt32) : Bool :=
  match (c >>> 8).toNat with
  | 0 => whitespaceMap (c.toNat &&& 0xff) &&& 1 != 0
  | 22 => c == 0x1680
  | 32 => whitespaceMap (c.toNat &&& 0xff) &&& 2 != 0
  | 48 => c == 0x3000
  | _ => false

/-- `char::is_whitespace`. -/
def isWhitespace (c : Char) : Bool :=
  if c.val = 0x20 ∨ (0x09 ≤ c.val ∧ c.val ≤ 0x0d) then true else decide (c.val > 0x7f) && whiteSpaceLookup c.val

/-! ## char/decode.rs -/

/-- `u16::is_utf16_surrogate`. -/
def isUtf16Surrogate (u : UInt16) : Bool := decide (0xD800 ≤ u) && decide (u ≤ 0xDFFF)

/-- `DecodeUtf16::next`; `(buf, iter)` is its state, an unpaired surrogate is `some none`. -/
def decodeUtf16Next (k : Option UInt16 × List UInt16) : Res ε (Option (Option Char) × (Option UInt16 × List UInt16)) :=
  let first : Option (UInt16 × List UInt16) :=
    match k.1, k.2 with
    | some u, l => some (u, l)
    | none, u :: l => some (u, l)
    | none, [] => none
  match first with
  | none => .ok (none, (none, []))
  | some (u, l) =>
    if ! isUtf16Surrogate u then do
      let c ← charFromU32Unchecked u.toUInt32
      return (some (some c), (none, l))
    else if u ≥ 0xDC00 then .ok (some none, (none, l))
    else match l with
      | [] => .ok (some none, (none, []))
      | u2 :: l =>
        if u2 < 0xDC00 ∨ u2 > 0xDFFF then .ok (some none, (some u2, l))
        else do
          let c := ((u &&& 0x3ff).toUInt32 <<< 10 ||| (u2 &&& 0x3ff).toUInt32) + 0x10000
          let c ← charFromU32Unchecked c
          return (some (some c), (none, l))

/-- The answers of `n` calls of `DecodeUtf16::next`. -/
def decodeUtf16Run : Nat → Option UInt16 × List UInt16 → Res ε (List (Option (Option Char)))
  | 0, _ => .ok []
  | n + 1, k => do
    let (o, k) ← decodeUtf16Next k
    let os ← decodeUtf16Run n k
    return o :: os

/-! ## intrinsics: `memmove` -/

/-- Write one byte. -/
def poke (mem : Bytes) (i : Nat) (x : UInt8) : Bytes := mem.set i x

/-- Copy `n` bytes upwards, one by one. -/
def copyForward (mem : Bytes) (src dst : Nat) : Nat → Bytes
  | 0 => mem
  | n + 1 => copyForward (poke mem dst (mem.getD src 0)) (src + 1) (dst + 1) n

/-- Copy `n` bytes downwards, one by one. -/
def copyBackward (mem : Bytes) (src dst : Nat) : Nat → Bytes
  | 0 => mem
  | n + 1 => copyBackward (poke mem (dst + n) (mem.getD (src + n) 0)) src dst n

/-- `memmove`: upwards if the destination is below the source, else downwards. -/
def memmove (mem : Bytes) (src dst n : Nat) : Bytes :=
  if dst ≤ src then copyForward mem src dst n else copyBackward mem src dst n

end Verif.Core
