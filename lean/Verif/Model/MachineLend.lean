import Verif.Model.MachineCacheMany
import Verif.Spec.Lend

/-!
# Texts of other strings as arguments

The calls of `Model/Machine` and `Model/MachineCache` that take a text, for a text that is anywhere in memory,
such as that of another string: all that is known of it is where it is, how long it is, and the reference to it.
Which bytes it has is only seen by loading them.
-/

namespace Verif.Machine
open Spec
open Borrow (Rules Tag)

variable {R : Rules} {N : Nat} {ε α : Type}

/-- Do what is done to a string at `0` and a text of `k` bytes at `N + 1` to the string and the `k` bytes at `o`:
other addresses, the same bytes. -/
def window (o k : Nat) (body : M (Mem R N) ε α) : M (Mem R N) ε α := fun m =>
  let v : Mem R N := {
    bytes := fun l => if l ≤ N then m.bytes l else m.bytes (o + (l - (N + 1)))
    mem := fun l => if l ≤ N then m.mem l else if l < N + 1 + k then m.mem (o + (l - (N + 1))) else R.empty
    next := m.next }
  let (r, v) := body v
  (r, { bytes := fun l => if l ≤ N then v.bytes l else if o ≤ l ∧ l < o + k then v.bytes (N + 1 + (l - o)) else m.bytes l
        mem := fun l => if l ≤ N then v.mem l else if o ≤ l ∧ l < o + k then v.mem (N + 1 + (l - o)) else m.mem l
        next := max m.next v.next })

/-- Perform a call that takes a text, with the text of `k` bytes behind `arg`. -/
def execText (caller arg : Tag) (k : Nat) : TextCall → M (Mem R N) Failure Out
  | .tryFromStr | .parse => construct caller (tryFromStr arg (N + 1) (N + 1 + k))
  | .fromStrTruncate | .from_ => construct (ε := Error) caller (fromStrTruncate arg k)
  | .tryPushStr => method caller (fun self => tryPushStr self arg k) fun _ => .unit
  | .pushStrTruncate => method (ε := Error) caller (fun self => pushStrTruncate self arg k) fun _ => .unit
  | .tryInsertStr i => method caller (fun self => tryInsertStr self arg i k) fun _ => .unit
  | .insertStrTruncate i => method caller (fun self => insertStrTruncate self arg i k) fun _ => .unit
  | .replaceRange r => method caller (fun self => replaceRangeOn self arg r k) fun _ => .unit
  | .add => construct (ε := Error) caller (add caller arg k)
  | .writeStr => method caller (fun self => writeStr self arg k) fun _ => .unit
  | .eqStr => call (ε := Error) (do
      passShared arg (N + 1) (N + 1 + k) fun other => do
        let a ← reading caller
        let b ← load other (N + 1) k
        pure (Str.eq a b)) .bool

/-- Perform one statement. -/
def act (caller arg : Tag) : Act → M (Mem R N) Failure Told
  | .deed d => deed caller arg d
  | .give c o => do
    let (a, k) ← At.asStr o arg
    let r ← window o k (execText caller a k c)
    pure (.out r)
  | .lend c o w => do
    let a ← retagShared arg o (o + (utf8 w).length) false
    let r ← window o (utf8 w).length (execText caller a (utf8 w).length c)
    pure (.out r)

/-- Perform the statements one after the other. -/
def acts (caller arg : Tag) : List Act → Mem R N → List (Res Failure Told) × Mem R N
  | [], m => ([], m)
  | a :: as, m =>
    let (r, m) := act caller arg a m
    let (rs, m) := acts caller arg as m
    (r :: rs, m)

namespace Cache

/-- `as_str` of another `CacheString`, through `deref`. -/
def asStrAt (o : Nat) (other : Tag) : M (Mem R N) ε (Tag × Nat) := do
  let t ← retagShared other o (o + N + 1) false
  let t ← through t o (o + N + 1) o (o + N + 1)
  Machine.At.asStr o t

/-- Perform a call of a `CacheString` that takes a text, with the text of `k` bytes behind `arg`. -/
def execText (caller arg : Tag) (k : Nat) (c : TextCall) : M (Mem R N) Failure Out :=
  match c with
  | .tryFromStr | .parse => construct caller (tryFromStr arg k)
  | .fromStrTruncate | .from_ => construct (ε := Error) caller (fromStrTruncate arg k)
  | .tryPushStr | .pushStrTruncate | .tryInsertStr _ | .insertStrTruncate _ | .replaceRange _ => do
    let v ← derefMut caller
    Machine.execText v arg k c
  | .add => construct (ε := Error) caller (add caller arg k)
  | .writeStr => method caller (fun self => writeStr self arg k) fun _ => .unit
  | .eqStr => call (ε := Error) (eqStr caller arg k) .bool

/-- Perform one statement. -/
def act (caller arg : Tag) : Act → M (Mem R N) Failure Told
  | .deed d => deed caller arg d
  | .give c o => do
    let (a, k) ← asStrAt o arg
    let r ← window o k (execText caller a k c)
    pure (.out r)
  | .lend c o w => do
    let a ← retagShared arg o (o + (utf8 w).length) false
    let r ← window o (utf8 w).length (execText caller a (utf8 w).length c)
    pure (.out r)

/-- Perform the statements one after the other. -/
def acts (caller arg : Tag) : List Act → Mem R N → List (Res Failure Told) × Mem R N
  | [], m => ([], m)
  | a :: as, m =>
    let (r, m) := act caller arg a m
    let (rs, m) := acts caller arg as m
    (r :: rs, m)

end Cache

end Verif.Machine
