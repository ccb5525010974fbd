import Verif.Model.Rust

/-!
# The parts of `core::str` and `core::char` the crate calls

A `&str` is its list of bytes.  These functions are part of Rust's standard library (not of the
repository); they are modelled after its documented behaviour and its source, on bytes, so that the
crate's byte-level code can be modelled literally.
-/

namespace Verif.Str

open Verif

/-- A UTF-8 continuation byte `0b10xxxxxx`. -/
def isCont (b : UInt8) : Bool := 128 ≤ b.toNat && b.toNat < 192

/-- `core::str::from_utf8(b).is_ok()` (`core/src/str/validations.rs`, `run_utf8_validation`):
the well-formed byte sequences of the Unicode standard, table 3-7.  `fuel` bounds the number of
characters; `validUtf8` supplies enough. -/
def validAux : Nat → Bytes → Bool
  | _, [] => true
  | 0, _ :: _ => false
  | fuel + 1, a :: rest =>
    let x := a.toNat
    if x < 0x80 then validAux fuel rest
    else if 0xC2 ≤ x ∧ x ≤ 0xDF then
      match rest with
      | b :: rest => isCont b && validAux fuel rest
      | _ => false
    else if 0xE0 ≤ x ∧ x ≤ 0xEF then
      match rest with
      | b :: c :: rest =>
        let y := b.toNat
        isCont b && isCont c && (x != 0xE0 || 0xA0 ≤ y) && (x != 0xED || y ≤ 0x9F)
          && validAux fuel rest
      | _ => false
    else if 0xF0 ≤ x ∧ x ≤ 0xF4 then
      match rest with
      | b :: c :: d :: rest =>
        let y := b.toNat
        isCont b && isCont c && isCont d && (x != 0xF0 || 0x90 ≤ y) && (x != 0xF4 || y ≤ 0x8F)
          && validAux fuel rest
      | _ => false
    else false

/-- `core::str::from_utf8(b).is_ok()`. -/
def validUtf8 (b : Bytes) : Bool := validAux b.length b

/-- `core::str::from_utf8_unchecked(b)`: undefined behaviour on invalid bytes. -/
def fromUtf8Unchecked {ε : Type} (b : Bytes) : Res ε Bytes :=
  if validUtf8 b then .ok b else .ub

/-- `str::is_char_boundary` (`core/src/str/mod.rs`): index 0 and `len` are boundaries, beyond `len`
nothing is, otherwise the byte at the index must not be a continuation byte
(`(b as i8) >= -0x40`). -/
def isCharBoundary (b : Bytes) (i : Nat) : Bool :=
  if i = 0 then true
  else if b.length ≤ i then i == b.length
  else match b[i]? with
    | some x => x.toNat < 128 || 192 ≤ x.toNat
    | none => false

/-- `core::str::validations::next_code_point`, the decoder behind `str::chars`; bit operations are
written as divisions and remainders.  Also returns the number of bytes read. -/
def nextCodePoint : Bytes → Option (Nat × Nat)
  | [] => none
  | x :: r1 =>
    if x.toNat < 128 then some (x.toNat, 1)
    else match r1 with
      | [] => none
      | y :: r2 =>
        if x.toNat < 0xE0 then some (x.toNat % 32 * 64 + y.toNat % 64, 2)
        else match r2 with
          | [] => none
          | z :: r3 =>
            if x.toNat < 0xF0 then
              some (x.toNat % 32 * 4096 + (y.toNat % 64 * 64 + z.toNat % 64), 3)
            else match r3 with
              | [] => none
              | w :: _ =>
                some (x.toNat % 8 * 262144 + (y.toNat % 64 * 64 + z.toNat % 64) * 64
                  + w.toNat % 64, 4)

/-- `str::char_indices`: the characters with their byte offsets, starting from offset `off`. -/
def charIndicesAux : Nat → Nat → Bytes → List (Nat × Char)
  | 0, _, _ => []
  | fuel + 1, off, b =>
    match nextCodePoint b with
    | none => []
    | some (v, n) => (off, Char.ofNat v) :: charIndicesAux fuel (off + n) (b.drop n)

/-- `str::char_indices`. -/
def charIndices (b : Bytes) : List (Nat × Char) := charIndicesAux b.length 0 b

/-- `str::chars`. -/
def chars (b : Bytes) : List Char := (charIndices b).map Prod.snd

/-- `str::get_unchecked(a..b)`: undefined behaviour unless `a ≤ b ≤ len` and both are character
boundaries. -/
def getUnchecked {ε : Type} (s : Bytes) (a b : Nat) : Res ε Bytes :=
  if a ≤ b ∧ b ≤ s.length ∧ isCharBoundary s a ∧ isCharBoundary s b then
    .ok ((s.drop a).take (b - a))
  else .ub

/-- `str::get(a..b)`. -/
def get? (s : Bytes) (a b : Nat) : Option Bytes :=
  if a ≤ b ∧ isCharBoundary s a ∧ isCharBoundary s b then some ((s.drop a).take (b - a)) else none

/-- `char::encode_utf8(&mut [0; 4])`, as the resulting `&str`. -/
def encodeUtf8 (c : Char) : Bytes := String.utf8EncodeChar c

/-- `char::len_utf8`. -/
def lenUtf8 (c : Char) : Nat := c.utf8Size

/-- `char::is_whitespace`: the Unicode property `White_Space`. -/
def isWhitespace (c : Char) : Bool :=
  let v := c.toNat
  (9 ≤ v && v ≤ 13) || v == 0x20 || v == 0x85 || v == 0xA0 || v == 0x1680 ||
  (0x2000 ≤ v && v ≤ 0x200A) || v == 0x2028 || v == 0x2029 || v == 0x202F || v == 0x205F ||
  v == 0x3000

/-- One call of `char::DecodeUtf16::next` over a `u16` sequence (`core/src/char/decode.rs`).  The
state is the one-unit buffer and the remaining units.  An unpaired surrogate is `none`. -/
def decodeUtf16Next : Iter (Option UInt16 × List UInt16) (Option Char)
  | (buf, l) =>
    let first : Option (UInt16 × List UInt16) :=
      match buf with
      | some u => some (u, l)
      | none =>
        match l with
        | [] => none
        | u :: l => some (u, l)
    match first with
    | none => .done (none, [])
    | some (u, l) =>
      if u.toNat / 2048 ≠ 27 then            -- (u & 0xF800) != 0xD800: not a surrogate
        .item (some (Char.ofNat u.toNat)) (none, l)
      else if 0xDC00 ≤ u.toNat then           -- a trailing surrogate
        .item none (none, l)
      else
        match l with
        | [] => .item none (none, [])         -- eof
        | u2 :: l =>
          if u2.toNat < 0xDC00 ∨ 0xDFFF < u2.toNat then
            .item none (some u2, l)           -- not a trailing surrogate: it becomes next
          else
            .item (some (Char.ofNat (u.toNat % 1024 * 1024 + u2.toNat % 1024 + 0x10000))) (none, l)

/-- `char::REPLACEMENT_CHARACTER`. -/
def replacementCharacter : Char := Char.ofNat 0xFFFD

end Verif.Str
