import Verif.Model.MachineMany
import Verif.Model.MachineCache

/-!
# Several `CacheString`s in the same memory

The traits of `CacheString` that only read, as `Model/MachineMany.lean` has those of `ArrayString`.  The field of a
`CacheString` is at the same bytes as the `CacheString`, so a reference to it covers the same ones.
-/

namespace Verif.Machine.Cache
open Spec
open Borrow (Rules Tag)

variable {R : Rules} {N : Nat} {ε α : Type}

namespace At
open Machine.At (callBoth)

/-- lib.rs:448-453 `PartialEq`. -/
def eq (o : Nat) (self : Tag) (o' : Nat) (other : Tag) : M (Mem R N) ε Bool :=
  callBoth o self o' other fun self other => Machine.At.eq o self o' other

/-- `PartialEq::ne` as the trait provides it. -/
def ne (o : Nat) (self : Tag) (o' : Nat) (other : Tag) : M (Mem R N) ε Bool :=
  callBoth o self o' other fun self other => do
    let r ← eq o self o' other
    pure !r

/-- lib.rs:456-461 `Ord`. -/
def cmp (o : Nat) (self : Tag) (o' : Nat) (other : Tag) : M (Mem R N) ε Ordering :=
  callBoth o self o' other fun self other => Machine.At.cmp o self o' other

/-- lib.rs:463-468 `PartialOrd`. -/
def partialCmp (o : Nat) (self : Tag) (o' : Nat) (other : Tag) : M (Mem R N) ε (Option Ordering) :=
  callBoth o self o' other fun self other => do
    let r ← cmp o self o' other
    pure (some r)

/-- `PartialOrd::lt`, `le`, `gt` and `ge` as the trait provides them. -/
def compared (yes : Option Ordering → Bool) (o : Nat) (self : Tag) (o' : Nat) (other : Tag) : M (Mem R N) ε Bool :=
  callBoth o self o' other fun self other => do
    let r ← partialCmp o self o' other
    pure (yes r)

/-- lib.rs:434-439 `Debug`: `field` is passed a `&` to the field, and formats it during the call. -/
def debug (o : Nat) (self : Tag) : M (Mem R N) ε (Bytes × UInt8) := Machine.At.callShared o self fun self =>
  Machine.At.callShared o self fun field => Machine.At.debug o field

/-- integration.rs:107-113 `Serialize`. -/
def serialize (o : Nat) (self : Tag) : M (Mem R N) ε Bytes := Machine.At.callShared o self fun self => Machine.At.serialize o self

/-- integration.rs:64-74 `ToSql`: `out` keeps the reference to the text. -/
def toSqlRef (o : Nat) (self : Tag) : M (Mem R N) ε (Tag × Nat) :=
  Machine.At.callRef o self fun self => Machine.At.toSqlRef o self

/-- `to_sql`, and a look at the text after the call. -/
def toSql (o : Nat) (self : Tag) : M (Mem R N) ε Bytes := do
  let (a, n) ← toSqlRef o self
  load a o n

end At

/-- Perform one statement; copying is lib.rs:162 `Copy` and `Clone`, derived. -/
def deed (caller arg : Tag) (s : Deed) : M (Mem R N) Failure Told :=
  match s with
  | .call op => do
    let r ← exec caller arg op
    pure (.out r)
  | .eq p q => do
    let b ← both caller arg p q At.eq
    pure (.out (.bool b))
  | .ne p q => do
    let b ← both caller arg p q At.ne
    pure (.out (.bool b))
  | .cmp p q => do
    let r ← both caller arg p q At.cmp
    pure (.out (.ordering r))
  | .partialCmp p q => do
    let r ← both caller arg p q At.partialCmp
    pure (.partialOrdering r)
  | .lt p q => do
    let b ← both caller arg p q (At.compared Machine.At.isLt)
    pure (.out (.bool b))
  | .le p q => do
    let b ← both caller arg p q (At.compared Machine.At.isLe)
    pure (.out (.bool b))
  | .gt p q => do
    let b ← both caller arg p q (At.compared Machine.At.isGt)
    pure (.out (.bool b))
  | .ge p q => do
    let b ← both caller arg p q (At.compared Machine.At.isGe)
    pure (.out (.bool b))
  | .clone p => do
    let s ← Machine.At.clone (address p) (refTo caller arg p)
    let b ← M.lift s.asStr
    pure (.out (.str b))
  | .assign p => do
    let s ← Machine.At.copy (address p) (refTo caller arg p)
    storeString caller s
    pure (.out .unit)
  | .debug p => do
    let (b, z) ← At.debug (address p) (refTo caller arg p)
    pure (.fields b z.toNat)
  | .serialize p => do
    let b ← At.serialize (address p) (refTo caller arg p)
    pure (.out (.str b))
  | .toSql p => do
    let b ← At.toSql (address p) (refTo caller arg p)
    pure (.out (.str b))

/-- Perform the statements one after the other. -/
def deeds (caller arg : Tag) : List Deed → Mem R N → List (Res Failure Told) × Mem R N
  | [], m => ([], m)
  | s :: ss, m =>
    let (r, m) := deed caller arg s m
    let (rs, m) := deeds caller arg ss m
    (r :: rs, m)

end Verif.Machine.Cache
