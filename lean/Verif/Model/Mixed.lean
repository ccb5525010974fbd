import Verif.Model.Store
import Verif.Model.CacheString
import Verif.Spec.Mixed

/-!
# Programs with strings of several capacities and `CacheString`s

Not code of the repository: a driver whose variables have different types.  What the statements
call is the code: `ArrayString<N>` for the capacity of each variable, and the forwarding `CacheString`.
-/

namespace Verif
open Spec ArrayString

variable {ty : Nat → VarType} {ε α : Type}

/-- The values of a type. -/
def Val : VarType → Type
  | .array n => ArrayString n
  | .cache => CacheString

namespace Val

/-- A call of the API. -/
def exec : {t : VarType} → Op → M (Val t) Failure Out
  | .array n, op => Verif.exec (N := n) op
  | .cache, op => CacheString.exec op

/-- `as_str` (of a `CacheString` through lib.rs:471-477 `Deref`). -/
def asStr : {t : VarType} → Val t → Res ε Bytes
  | .array n, s => ArrayString.asStr (N := n) s
  | .cache, c => (CacheString.deref c).asStr

/-- arraystring.rs:22 and lib.rs derived `Clone`. -/
def clone : {t : VarType} → Val t → Val t
  | .array n, s => ArrayString.clone (N := n) s
  | .cache, c => CacheString.clone c

/-- `PartialEq` between values of the same type. -/
def eq : {t : VarType} → Val t → Val t → Res ε Bool
  | .array n, s, t => ArrayString.eq (N := n) s t
  | .cache, c, d => CacheString.eq c d

/-- `Ord` between values of the same type. -/
def cmp : {t : VarType} → Val t → Val t → Res ε Ordering
  | .array n, s, t => ArrayString.cmp (N := n) s t
  | .cache, c, d => CacheString.cmp c d

/-- `Display`. -/
def display {ω : Type} (sink : Sink ω) (o : FmtOpts) : {t : VarType} → Val t → M ω FmtError Unit
  | .array n, s => ArrayString.display (N := n) sink o s
  | .cache, c => CacheString.display sink o c

/-- The value as a sink of `write!`. -/
def sink : {t : VarType} → Sink (Val t)
  | .array n => ArrayString.sink (N := n)
  | .cache => CacheString.sink

/-- `split_off`. -/
def splitOff (at_ : Nat) : {t : VarType} → M (Val t) Error (Val t)
  | .array n => ArrayString.splitOff (N := n) at_
  | .cache => CacheString.splitOff at_

/-- `drain` (of a `CacheString` through lib.rs:479-484 `DerefMut`). -/
def drain (r : RangeB) : {t : VarType} → M (Val t) Error (Drain t.capacity)
  | .array n => ArrayString.drain (N := n) r
  | .cache => CacheString.derefMut (ArrayString.drain r)

/-- `collect` of characters. -/
def collect {κ : Type} (it : Iter κ Char) (k : κ) : {t : VarType} → Res ε (Val t × κ)
  | .array n => ArrayString.fromIterChars (N := n) it k
  | .cache => CacheString.fromIterChars it k

end Val

/-- The variables. -/
abbrev Vars (ty : Nat → VarType) := (i : Nat) → Val (ty i)

namespace Vars

/-- Assign a variable. -/
def assign (x : Vars ty) (i : Nat) (v : Val (ty i)) : Vars ty := fun k => if h : k = i then h ▸ v else x k

/-- Work on one of the variables. -/
def on (i : Nat) (m : M (Val (ty i)) ε α) : M (Vars ty) ε α := fun x => ((m (x i)).1, x.assign i (m (x i)).2)

/-- `xi = v`. -/
def set (i : Nat) (v : Val (ty i)) : M (Vars ty) ε Unit := fun x => (.ok (), x.assign i v)

/-- The texts of some variables. -/
def texts (x : Vars ty) : List Nat → Res ε (List (List Char))
  | [] => .ok []
  | j :: js => do
    let b ← (x j).asStr
    let ws ← texts x js
    .ok (Str.chars b :: ws)

end Vars

/-- Perform a statement. -/
def execMixed (t : MixedStmt ty) : M (Vars ty) Failure Out :=
  match t with
  | .call i op => Vars.on i (Val.exec op)
  | .use i js f => do
    let x ← M.self
    let ws ← M.lift (x.texts js)
    Vars.on i (Val.exec (f ws))
  | .copy i j h => do
    let x ← M.self
    Vars.set j (h ▸ (x i).clone)
    pure .unit
  | .eq i j h => do
    let x ← M.self
    let b ← M.lift (Val.eq (h ▸ x i) (x j))
    pure (.bool b)
  | .cmp i j h => do
    let x ← M.self
    let o ← M.lift (Val.cmp (h ▸ x i) (x j))
    pure (.ordering o)
  | .print i j => do
    let x ← M.self
    Vars.on j (M.mapErr Kind.kind (Fmt.write Val.sink [.arg {} fun o => (x i).display Val.sink o]))
    pure .unit
  | .splitOff i at_ j h => do
    let t ← Vars.on i (M.mapErr Kind.kind (Val.splitOff at_))
    Vars.set j (h ▸ t)
    pure .unit
  | .drain i r j => do
    let d ← Vars.on i (M.mapErr Kind.kind (Val.drain r))
    let (t, _) ← M.lift (Val.collect drainIter d)
    Vars.set j t
    pure .unit
  | .wrap i j hi hj => do
    let x ← M.self
    let s : ArrayString 63 := cast (congrArg Val hi) (x i)
    Vars.set j (hj ▸ (CacheString.fromArray s : Val .cache))
    pure .unit
  | .unwrap i j hi hj => do
    let x ← M.self
    let c : CacheString := cast (congrArg Val hi) (x i)
    Vars.set j (hj ▸ (c.deref : Val (.array 63)))
    pure .unit

/-- Perform a program. -/
def runMixed : List (MixedStmt ty) → Vars ty → List (Res Failure Out) × Vars ty
  | [], x => ([], x)
  | t :: ts, x =>
    let (r, x) := execMixed t x
    let (rs, x) := runMixed ts x
    (r :: rs, x)

end Verif
