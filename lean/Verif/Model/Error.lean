import Verif.Model.Rust

/-! # `src/error.rs` -/

namespace Verif

/-- error.rs:173-174 `struct OutOfBounds`. -/
structure OutOfBounds where
deriving DecidableEq, Repr

/-- error.rs:92-93 `struct Utf8`. -/
structure Utf8 where
deriving DecidableEq, Repr

/-- error.rs:128-129 `struct Utf16`. -/
structure Utf16 where
deriving DecidableEq, Repr

/-- error.rs:11-19 `enum Error`. -/
inductive Error where
  | utf8
  | utf16
  | outOfBounds
deriving DecidableEq, Repr

/-- `core::str::Utf8Error`, `core::char::DecodeUtf16Error`: only their kind matters here. -/
structure StdUtf8Error where
structure DecodeUtf16Error where
/-- `core::str::EncodeUtf16` (an iterator, oddly accepted as an error source). -/
structure EncodeUtf16 where

/-- error.rs:119-125. -/
instance : ErrFrom Utf8 Error := ⟨fun _ => .utf8⟩
/-- error.rs:148-154. -/
instance : ErrFrom Utf16 Error := ⟨fun _ => .utf16⟩
/-- error.rs:193-199. -/
instance : ErrFrom OutOfBounds Error := ⟨fun _ => .outOfBounds⟩
/-- error.rs:70-75. -/
instance : ErrFrom StdUtf8Error Error := ⟨fun _ => .utf8⟩
/-- error.rs:77-82. -/
instance : ErrFrom DecodeUtf16Error Error := ⟨fun _ => .utf16⟩
/-- error.rs:84-89. -/
instance : ErrFrom EncodeUtf16 Error := ⟨fun _ => .utf16⟩
/-- error.rs:112-117. -/
instance : ErrFrom StdUtf8Error Utf8 := ⟨fun _ => {}⟩
/-- error.rs:156-161. -/
instance : ErrFrom DecodeUtf16Error Utf16 := ⟨fun _ => {}⟩
/-- error.rs:163-168. -/
instance : ErrFrom EncodeUtf16 Utf16 := ⟨fun _ => {}⟩

/-- error.rs:21-30 `PartialEq for Error`. -/
def Error.eq : Error → Error → Bool
  | .utf8, .utf8 | .utf16, .utf16 | .outOfBounds, .outOfBounds => true
  | _, _ => false

end Verif
