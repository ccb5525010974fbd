import Verif.Model.CacheString

/-! # `src/integration.rs`: the traits of serde and diesel -/

namespace Verif
open Spec

variable {ε ρ ω : Type} {N : Nat}

/-! ## serde (not code of the repository) -/

/-- What a `serde::Deserializer` gives to the visitor, when asked for a `str`: one call of a
`visit_*` method.  `other` stands for the methods for numbers, sequences, maps, .. -/
inductive Visit where
  | borrowedStr (b : Bytes)
  | str (b : Bytes)
  | string (b : Bytes)
  | borrowedBytes (b : Bytes)
  | bytes (b : Bytes)
  | byteBuf (b : Bytes)
  | other
deriving DecidableEq, Repr

/-- A `serde::Deserializer` about to be used, with the errors it makes for
`de::Error::invalid_type` and `invalid_value`. -/
structure Deserializer (ε : Type) where
  visit : Res ε Visit
  invalidType : ε
  invalidValue : ε

/-- `<&str as Deserialize>::deserialize` (`serde/src/de/impls.rs`, `StrVisitor`): accepts only
`visit_borrowed_str`, and `visit_borrowed_bytes` if they are UTF-8. -/
def Str.deserialize (d : Deserializer ε) : Res ε Bytes := do
  match ← d.visit with
  | .borrowedStr b => .ok b
  | .borrowedBytes b => if Str.validUtf8 b then .ok b else .err d.invalidValue
  | _ => .err d.invalidType

/-- `<String as Deserialize>::deserialize` (`serde/src/de/impls.rs`, `StringVisitor`), to compare. -/
def Str.deserializeString (d : Deserializer ε) : Res ε Bytes := do
  match ← d.visit with
  | .borrowedStr b | .str b | .string b => .ok b
  | .borrowedBytes b | .bytes b | .byteBuf b => if Str.validUtf8 b then .ok b else .err d.invalidValue
  | .other => .err d.invalidType

/-- A `serde::Serializer` about to be used: what `serialize_str` does. -/
structure Serializer (ε ρ : Type) where
  serializeStr : Bytes → Res ε ρ

/-- `<str as Serialize>::serialize`. -/
def Str.serialize (s : Bytes) (ser : Serializer ε ρ) : Res ε ρ := ser.serializeStr s

namespace ArrayString

/-- integration.rs:85-94 `Serialize`. -/
def serialize (s : ArrayString N) (ser : Serializer ε ρ) : Res ε ρ := do
  let b ← s.asStr
  Str.serialize b ser

/-- integration.rs:96-105 `Deserialize`. -/
def deserialize (d : Deserializer ε) : Res ε (ArrayString N) := do
  let b ← Str.deserialize d
  ArrayString.fromStrTruncate b

end ArrayString

namespace CacheString

/-- integration.rs:107-113 `Serialize`. -/
def serialize (c : CacheString) (ser : Serializer ε ρ) : Res ε ρ := c.inner.serialize ser

/-- integration.rs:115-122 `Deserialize`. -/
def deserialize (d : Deserializer ε) : Res ε CacheString := do
  let a ← ArrayString.deserialize d
  pure ⟨a⟩

end CacheString

/-! ## diesel -/

/-- A diesel backend (not code of the repository): how it writes a `str` to the output of a statement
(`<str as ToSql<Text, DB>>::to_sql`) and reads a raw column value as a `str`
(`<*const str as FromSql<ST, DB>>::from_sql`; `none` is a null pointer). -/
structure Backend (ε ω ρ : Type) where
  toSql : Bytes → M ω ε Unit
  fromSql : ρ → Res ε (Option Bytes)

namespace ArrayString

/-- integration.rs:24-38 `FromSql`. -/
def fromSql (db : Backend ε ω ρ) (raw : ρ) : Res ε (ArrayString N) := do
  let ptr ← db.fromSql raw
  debugAssert ptr.isSome
  match ptr with
  | none => .ub
  | some b => ArrayString.fromStrTruncate b

/-- integration.rs:39-50 `ToSql`. -/
def toSql (db : Backend ε ω ρ) (s : ArrayString N) : M ω ε Unit := do
  let b ← M.lift s.asStr
  db.toSql b

end ArrayString

namespace CacheString

/-- integration.rs:52-62 `FromSql`. -/
def fromSql (db : Backend ε ω ρ) (raw : ρ) : Res ε CacheString := do
  let a ← ArrayString.fromSql db raw
  pure ⟨a⟩

/-- integration.rs:64-74 `ToSql`. -/
def toSql (db : Backend ε ω ρ) (c : CacheString) : M ω ε Unit := c.inner.toSql db

end CacheString
end Verif
