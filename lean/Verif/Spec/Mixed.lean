import Verif.Spec.Store

/-! # Programs with strings of several capacities and `CacheString`s -/

namespace Verif.Spec

/-- Types of variables: `ArrayString<Un>` and `CacheString`. -/
inductive VarType where
  | array (n : Nat)
  | cache
deriving DecidableEq

/-- How many bytes fit. -/
def VarType.capacity : VarType → Nat
  | .array n => n
  | .cache => 63

/-- Statements of a program whose variable `xi` has type `ty i`. -/
inductive MixedStmt (ty : Nat → VarType) where
  | call (i : Nat) (op : Op)                                  -- `xi.op(..)`
  | use (i : Nat) (js : List Nat) (f : List (List Char) → Op) -- `xi.op(.., &xj, .., &xk, ..)`, the others as `&str`
  | copy (i j : Nat) (h : ty i = ty j)                        -- `xj = xi` or `xj = xi.clone()`
  | eq (i j : Nat) (h : ty i = ty j)                          -- `xi == xj`
  | cmp (i j : Nat) (h : ty i = ty j)                         -- `xi.cmp(&xj)`
  | print (i j : Nat)                                         -- `write!(xj, "{}", xi)`
  | splitOff (i at_ j : Nat) (h : ty i = ty j)                -- `xj = xi.split_off(at)?`
  | drain (i : Nat) (r : RangeB) (j : Nat)                    -- `let d = xi.drain(r)?; xj = d.collect()`
  | wrap (i j : Nat) (hi : ty i = .array 63) (hj : ty j = .cache)   -- `xj = CacheString::from(xi)`
  | unwrap (i j : Nat) (hi : ty i = .cache) (hj : ty j = .array 63) -- `xj = *xi`

variable {ty : Nat → VarType}

/-- Arguments of type `usize` are `usize` values. -/
def MixedStmt.Ok : MixedStmt ty → Prop
  | .call _ op => op.Ok
  | .use _ _ f => ∀ ws, (f ws).Ok
  | _ => True

/-- The variables a statement may change. -/
def MixedStmt.writes : MixedStmt ty → List Nat
  | .call i _ | .use i _ _ => [i]
  | .copy _ j _ | .print _ j | .wrap _ j _ _ | .unwrap _ j _ _ => [j]
  | .eq _ _ _ | .cmp _ _ _ => []
  | .splitOff i _ j _ | .drain i _ j => [i, j]

/-- The variables that what a statement does may depend on. -/
def MixedStmt.reads : MixedStmt ty → List Nat
  | .call i _ => [i]
  | .use i js _ => i :: js
  | .copy i _ _ | .splitOff i _ _ _ | .drain i _ _ | .wrap i _ _ _ | .unwrap i _ _ _ => [i]
  | .eq i j _ | .cmp i j _ | .print i j => [i, j]

/-- A call on one of the texts. -/
def callVar (ty : Nat → VarType) (x : Nat → List Char) (i : Nat) (op : Op) : Answer × (Nat → List Char) :=
  let (a, w) := step (ty i).capacity op (x i)
  (a, assignVar x i w)

/-- What a statement does to the texts of the variables. -/
def mixed (x : Nat → List Char) : MixedStmt ty → Answer × (Nat → List Char)
  | .call i op => callVar ty x i op
  | .use i js f => callVar ty x i (f (js.map x))
  | .copy i j _ | .wrap i j _ _ | .unwrap i j _ _ => (.returned .unit, assignVar x j (x i))
  | .eq i j _ => (.returned (.bool (x i = x j)), x)
  | .cmp i j _ => (.returned (.ordering (cmpText (x i) (x j))), x)
  | .print i j =>
    if byteLen (x j ++ x i) ≤ (ty j).capacity then (.returned .unit, assignVar x j (x j ++ x i)) else (.failed .fmt, x)
  | .splitOff i at_ j _ =>
    if byteLen (x i) < at_ then (.failed .outOfBounds, x)
    else match cutAt (x i) at_ with
      | some (p, q) => (.returned .unit, assignVar (assignVar x i p) j q)
      | none => (.failed .utf8, x)
  | .drain i r j =>
    let a := startOf r
    let b := endOf r (byteLen (x i))
    if a ≤ b ∧ b ≤ byteLen (x i) then
      match cut2 (x i) a b with
      | some (p, m, q) => (.returned .unit, assignVar (assignVar x i (p ++ q)) j (takeFit (ty j).capacity m))
      | none => (.failed .utf8, x)
    else (.failed .outOfBounds, x)

/-- A program. -/
def mixeds : List (MixedStmt ty) → (Nat → List Char) → List Answer × (Nat → List Char)
  | [], x => ([], x)
  | t :: ts, x =>
    let (a, x) := mixed x t
    let (as, x) := mixeds ts x
    (a :: as, x)

end Verif.Spec
