import Verif.Model.Machine
import Verif.Model.Fmt
import Verif.Spec.Several

/-!
# Several strings in the same memory

The functions of `Model/Machine` that only read, for a string at any address: its `array` field is at
`o .. o + N`, its `size` field at `o + N`.  With them the traits that take two strings, and the other ones
that only read, as loads through tags.

The strings at the addresses from `N + 1` on are behind one shared reference `arg`, as in a slice of strings; the
one at `0` is behind the `&mut` that `caller` is.  The two strings of a comparison may be the same.
-/

namespace Verif.Machine
open Spec
open Borrow (Rules Tag)

variable {R : Rules} {N : Nat} {ε α : Type}

namespace At

/-- Call a function with a `&` to the string at `o`. -/
def callShared (o : Nat) (self : Tag) (body : Tag → M (Mem R N) ε α) : M (Mem R N) ε α := do
  let t ← retagShared self o (o + N + 1) false
  passShared t o (o + N + 1) body

/-- The same for a function that gives back a reference to the text, and its length. -/
def callRef (o : Nat) (self : Tag) (body : Tag → M (Mem R N) ε (Tag × Nat)) : M (Mem R N) ε (Tag × Nat) := do
  let (a, n) ← callShared o self body
  let a ← retagShared a o (o + n) false
  pure (a, n)

/-- Call a function with a `&` to the string at `o` and a `&` to the string at `o'`. -/
def callBoth (o : Nat) (self : Tag) (o' : Nat) (other : Tag) (body : Tag → Tag → M (Mem R N) ε α) :
    M (Mem R N) ε α := do
  let t ← retagShared self o (o + N + 1) false
  let u ← retagShared other o' (o' + N + 1) false
  passShared t o (o + N + 1) fun t => passShared u o' (o' + N + 1) fun u => body t u

/-- arraystring.rs:719-724 `len`. -/
def len (o : Nat) (self : Tag) : M (Mem R N) ε Nat := callShared o self fun self => do
  let b ← loadByte self (o + N)
  pure b.toNat

/-- implementations.rs:57-68 `AsRef<[u8]>::as_ref`. -/
def asRefBytes (o : Nat) (self : Tag) : M (Mem R N) ε (Tag × Nat) := callRef o self fun self => do
  let n ← len o self
  M.lift (debugAssert (n ≤ N))
  let a ← retagShared self o (o + N) false
  let a ← through a o (o + N) o (o + N)
  let n ← len o self
  M.lift (if n ≤ N then .ok () else .ub)
  let a ← through a o (o + N) o (o + n)
  pure (a, n)

/-- implementations.rs:23-36 `AsRef<str>::as_ref`. -/
def asRefStr (o : Nat) (self : Tag) : M (Mem R N) ε (Tag × Nat) := callRef o self fun self => do
  let (a, n) ← asRefBytes o self
  let b ← load a o n
  M.lift (debugAssert (Str.validUtf8 b))
  let (a, n) ← asRefBytes o self
  let _ ← M.lift (Str.fromUtf8Unchecked b)
  let a ← through a o (o + n) o (o + n)
  pure (a, n)

/-- arraystring.rs:336-341 `as_str`. -/
def asStr (o : Nat) (self : Tag) : M (Mem R N) ε (Tag × Nat) := callRef o self (asRefStr o)

/-- `str`'s `==`: the lengths, and if they are the same the bytes. -/
def sameText (a : Tag) (o n : Nat) (c : Tag) (o' k : Nat) : M (Mem R N) ε Bool :=
  passShared a o (o + n) fun a => passShared c o' (o' + k) fun c =>
    if n = k then do
      let x ← load a o n
      let y ← load c o' n
      pure (x == y)
    else pure false

/-- `str`'s `cmp`: the bytes up to the shorter length, and if they are the same the lengths. -/
def cmpText (a : Tag) (o n : Nat) (c : Tag) (o' k : Nat) : M (Mem R N) ε Ordering :=
  passShared a o (o + n) fun a => passShared c o' (o' + k) fun c => do
    let x ← load a o (min n k)
    let y ← load c o' (min n k)
    pure ((Str.cmp x y).then (compare n k))

/-- implementations.rs:163-172 `PartialEq`. -/
def eq (o : Nat) (self : Tag) (o' : Nat) (other : Tag) : M (Mem R N) ε Bool :=
  callBoth o self o' other fun self other => do
    let (a, n) ← asStr o self
    let (c, k) ← asStr o' other
    sameText a o n c o' k

/-- `PartialEq::ne` as the trait provides it. -/
def ne (o : Nat) (self : Tag) (o' : Nat) (other : Tag) : M (Mem R N) ε Bool :=
  callBoth o self o' other fun self other => do
    let r ← eq o self o' other
    pure !r

/-- implementations.rs:176-185 `Ord`. -/
def cmp (o : Nat) (self : Tag) (o' : Nat) (other : Tag) : M (Mem R N) ε Ordering :=
  callBoth o self o' other fun self other => do
    let (a, n) ← asStr o self
    let (c, k) ← asStr o' other
    cmpText a o n c o' k

/-- implementations.rs:187-196 `PartialOrd`. -/
def partialCmp (o : Nat) (self : Tag) (o' : Nat) (other : Tag) : M (Mem R N) ε (Option Ordering) :=
  callBoth o self o' other fun self other => do
    let r ← cmp o self o' other
    pure (some r)

/-- `PartialOrd::lt`, `le`, `gt` and `ge` as the trait provides them, by what they say about the answer of
`partial_cmp`. -/
def compared (yes : Option Ordering → Bool) (o : Nat) (self : Tag) (o' : Nat) (other : Tag) : M (Mem R N) ε Bool :=
  callBoth o self o' other fun self other => do
    let r ← partialCmp o self o' other
    pure (yes r)

def isLt : Option Ordering → Bool
  | some .lt => true
  | _ => false

def isLe : Option Ordering → Bool
  | some .lt | some .eq => true
  | _ => false

def isGt : Option Ordering → Bool
  | some .gt => true
  | _ => false

def isGe : Option Ordering → Bool
  | some .gt | some .eq => true
  | _ => false

/-- `*self`: all bytes of the string (arraystring.rs:22 `Copy`). -/
def copy (o : Nat) (self : Tag) : M (Mem R N) ε (ArrayString N) := do
  let b ← load self o (N + 1)
  pure ⟨b.take N, (b.drop N).headD 0⟩

/-- arraystring.rs:22 `Clone`, derived: `*self`. -/
def clone (o : Nat) (self : Tag) : M (Mem R N) ε (ArrayString N) := callShared o self (copy o)

/-- implementations.rs:94-106 `Debug`: the references to the text and to the `size` field are made first; the
formatter reads through them. -/
def debug (o : Nat) (self : Tag) : M (Mem R N) ε (Bytes × UInt8) := callShared o self fun self => do
  let (a, n) ← asStr o self
  let b ← passShared a o (o + n) fun a => load a o n
  let z ← retagShared self (o + N) (o + N + 1) false
  let z ← passShared z (o + N) (o + N + 1) fun z => loadByte z (o + N)
  pure (b, z)

/-- integration.rs:85-94 `Serialize`: the serializer reads the text during the call. -/
def serialize (o : Nat) (self : Tag) : M (Mem R N) ε Bytes := callShared o self fun self => do
  let (a, n) ← asStr o self
  passShared a o (o + n) fun a => load a o n

/-- integration.rs:39-50 `ToSql`: `out` keeps the reference to the text. -/
def toSqlRef (o : Nat) (self : Tag) : M (Mem R N) ε (Tag × Nat) := callRef o self fun self => do
  let (a, n) ← asStr o self
  let a ← through a o (o + n) o (o + n)
  pure (a, n)

/-- `to_sql`, and a look at the text after the call. -/
def toSql (o : Nat) (self : Tag) : M (Mem R N) ε Bytes := do
  let (a, n) ← toSqlRef o self
  load a o n

end At

/-- Where a string is. -/
def address : Place → Nat
  | .own => 0
  | .at o => o

/-- The reference to it. -/
def refTo (caller arg : Tag) : Place → Tag
  | .own => caller
  | .at _ => arg

/-- A function of two strings. -/
def both (caller arg : Tag) (p q : Place) (f : Nat → Tag → Nat → Tag → M (Mem R N) ε α) : M (Mem R N) ε α :=
  f (address p) (refTo caller arg p) (address q) (refTo caller arg q)

/-- Perform one statement. -/
def deed (caller arg : Tag) (s : Deed) : M (Mem R N) Failure Told :=
  match s with
  | .call op => do
    let r ← exec caller arg op
    pure (.out r)
  | .eq p q => do
    let b ← both caller arg p q At.eq
    pure (.out (.bool b))
  | .ne p q => do
    let b ← both caller arg p q At.ne
    pure (.out (.bool b))
  | .cmp p q => do
    let r ← both caller arg p q At.cmp
    pure (.out (.ordering r))
  | .partialCmp p q => do
    let r ← both caller arg p q At.partialCmp
    pure (.partialOrdering r)
  | .lt p q => do
    let b ← both caller arg p q (At.compared At.isLt)
    pure (.out (.bool b))
  | .le p q => do
    let b ← both caller arg p q (At.compared At.isLe)
    pure (.out (.bool b))
  | .gt p q => do
    let b ← both caller arg p q (At.compared At.isGt)
    pure (.out (.bool b))
  | .ge p q => do
    let b ← both caller arg p q (At.compared At.isGe)
    pure (.out (.bool b))
  | .clone p => do
    let s ← At.clone (address p) (refTo caller arg p)
    let b ← M.lift s.asStr
    pure (.out (.str b))
  | .assign p => do
    let s ← At.copy (address p) (refTo caller arg p)
    storeString caller s
    pure (.out .unit)
  | .debug p => do
    let (b, z) ← At.debug (address p) (refTo caller arg p)
    pure (.fields b z.toNat)
  | .serialize p => do
    let b ← At.serialize (address p) (refTo caller arg p)
    pure (.out (.str b))
  | .toSql p => do
    let b ← At.toSql (address p) (refTo caller arg p)
    pure (.out (.str b))

/-- Perform the statements one after the other. -/
def deeds (caller arg : Tag) : List Deed → Mem R N → List (Res Failure Told) × Mem R N
  | [], m => ([], m)
  | s :: ss, m =>
    let (r, m) := deed caller arg s m
    let (rs, m) := deeds caller arg ss m
    (r :: rs, m)

end Verif.Machine
