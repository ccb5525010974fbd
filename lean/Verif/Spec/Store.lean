import Verif.Spec.History

/-! # Programs with several strings -/

namespace Verif.Spec

/-- Statements of a program with variables `0, 1, ..` of type `ArrayString<N>`. -/
inductive Stmt where
  | call (i : Nat) (op : Op)              -- `xi.op(..)`
  | copy (i j : Nat)                      -- `xj = xi` or `xj = xi.clone()`
  | eq (i j : Nat)                        -- `xi == xj`
  | cmp (i j : Nat)                       -- `xi.cmp(&xj)`
  | push (i j : Nat)                      -- `xi.try_push_str(xj)`
  | splitOff (i at_ j : Nat)              -- `xj = xi.split_off(at)?`
  | drain (i : Nat) (r : RangeB) (j : Nat) -- `let d = xi.drain(r)?; xj = d.collect()`

/-- Arguments of type `usize` are `usize` values. -/
def Stmt.Ok : Stmt → Prop
  | .call _ op => op.Ok
  | _ => True

/-- The variables a statement may change. -/
def Stmt.writes : Stmt → List Nat
  | .call i _ => [i]
  | .copy _ j => [j]
  | .eq _ _ | .cmp _ _ => []
  | .push i _ => [i]
  | .splitOff i _ j => [i, j]
  | .drain i _ j => [i, j]

/-- Assign a variable. -/
def assignVar {α : Type} (x : Nat → α) (i : Nat) (a : α) : Nat → α := fun k => if k = i then a else x k

/-- What a statement does to the texts of the variables. -/
def stmt (N : Nat) (x : Nat → List Char) : Stmt → Answer × (Nat → List Char)
  | .call i op => ((step N op (x i)).1, assignVar x i (step N op (x i)).2)
  | .copy i j => (.returned .unit, assignVar x j (x i))
  | .eq i j => (.returned (.bool (x i = x j)), x)
  | .cmp i j => (.returned (.ordering (cmpText (x i) (x j))), x)
  | .push i j => ((step N (.tryPushStr (x j)) (x i)).1, assignVar x i (step N (.tryPushStr (x j)) (x i)).2)
  | .splitOff i at_ j =>
    if byteLen (x i) < at_ then (.failed .outOfBounds, x)
    else match cutAt (x i) at_ with
      | some (p, q) => (.returned .unit, assignVar (assignVar x i p) j q)
      | none => (.failed .utf8, x)
  | .drain i r j =>
    let a := startOf r
    let b := endOf r (byteLen (x i))
    if a ≤ b ∧ b ≤ byteLen (x i) then
      match cut2 (x i) a b with
      | some (p, m, q) => (.returned .unit, assignVar (assignVar x i (p ++ q)) j m)
      | none => (.failed .utf8, x)
    else (.failed .outOfBounds, x)

/-- A program. -/
def stmts (N : Nat) : List Stmt → (Nat → List Char) → List Answer × (Nat → List Char)
  | [], x => ([], x)
  | t :: ts, x =>
    let (a, x) := stmt N x t
    let (as, x) := stmts N ts x
    (a :: as, x)

end Verif.Spec
