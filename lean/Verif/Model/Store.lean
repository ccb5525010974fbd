import Verif.Model.History
import Verif.Spec.Store

/-!
# Programs with several strings

Not code of the repository: a driver with variables of type `ArrayString<N>`.  The type is `Copy`
(arraystring.rs:22 `#[derive(Copy, Clone)]`), so assignment and `clone` copy the whole value.
-/

namespace Verif
open Spec ArrayString

variable {N : Nat} {ε α : Type}

/-- Work on one of the variables. -/
def onVar (i : Nat) (m : M (ArrayString N) ε α) : M (Nat → ArrayString N) ε α := fun x =>
  ((m (x i)).1, assignVar x i (m (x i)).2)

/-- `xi = s`. -/
def setVar (i : Nat) (s : ArrayString N) : M (Nat → ArrayString N) ε Unit := fun x => (.ok (), assignVar x i s)

/-- arraystring.rs:22 derived `Clone`. -/
def ArrayString.clone (s : ArrayString N) : ArrayString N := ⟨s.array, s.size⟩

/-- drain.rs:20-26 `Clone for Drain`. -/
def ArrayString.Drain.clone (d : Drain N) : Drain N := ⟨d.inner.clone⟩

/-- A `Drain` as the iterator of a `for` loop or `collect`. -/
def drainIter : Iter (Drain N) Char := fun d =>
  match (Drain.next : M (Drain N) Error _) d with
  | (.ok (some c), d) => .item c d
  | (.ok none, d) => .done d
  | _ => .panic

/-- Perform a statement. -/
def execStmt (t : Stmt) : M (Nat → ArrayString N) Failure Out :=
  match t with
  | .call i op => onVar i (exec op)
  | .copy i j => do
    let x ← M.self
    setVar j (x i).clone
    pure .unit
  | .eq i j => do
    let x ← M.self
    let b ← M.lift ((x i).eq (x j))
    pure (.bool b)
  | .cmp i j => do
    let x ← M.self
    let o ← M.lift ((x i).cmp (x j))
    pure (.ordering o)
  | .push i j => do
    let x ← M.self
    let b ← M.lift (x j).asStr
    onVar i (call (tryPushStr b) fun _ => .unit)
  | .splitOff i at_ j => do
    let t ← onVar i (M.mapErr Kind.kind (splitOff at_))
    setVar j t
    pure .unit
  | .drain i r j => do
    let d ← onVar i (M.mapErr Kind.kind (drain r))
    let (t, _) ← M.lift (fromIterChars drainIter d)
    setVar j t
    pure .unit

/-- Perform a program. -/
def runStmts : List Stmt → (Nat → ArrayString N) → List (Res Failure Out) × (Nat → ArrayString N)
  | [], x => ([], x)
  | t :: ts, x =>
    let (r, x) := execStmt t x
    let (rs, x) := runStmts ts x
    (r :: rs, x)

end Verif
