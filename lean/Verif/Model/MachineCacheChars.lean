import Verif.Model.MachineChars
import Verif.Model.MachineCache

/-!
# The characters of a `CacheString` one byte at a time

`pop`, `trim`, `remove`, `retain` and `drain` of a `CacheString` are those of `Model/MachineChars`, after `deref_mut`.
-/

namespace Verif.Machine.Cache.Chars
open Spec
open Borrow (Rules Tag)

variable {R : Rules} {N : Nat}

/-- Perform one call: lib.rs:479-484 `deref_mut` and then the method of the field; the others as in
`Model/MachineCache`. -/
def exec (caller arg : Tag) (op : Op) : M (Mem R N) Failure Out :=
  match op with
  | .pop | .trim | .remove _ | .retain _ | .drain _ _ => do
    let v ← derefMut caller
    Machine.Chars.exec v arg op
  | _ => Cache.exec caller arg op

/-- Perform the calls one after the other, all through the same references. -/
def runOps (caller arg : Tag) : List Op → Mem R N → List (Res Failure Out) × Mem R N
  | [], m => ([], m)
  | op :: ops, m =>
    let (r, m) := exec caller arg op m
    let (rs, m) := runOps caller arg ops m
    (r :: rs, m)

end Verif.Machine.Cache.Chars
