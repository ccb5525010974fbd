import Verif.Model.BorrowOps
import Verif.Spec.Client

/-!
# Programs that keep references to the string, with tags

The statements of `Spec.Statement`, performed through one `&mut ArrayString<N>` tagged `caller`.  A variable is
kept for ever, whether the borrow checker lets the program use it or not: that it is not used after it has
become unusable has to be proved.

Simplifications: those of `Model/BorrowOps.lean`; the variables themselves, of which there may be any
number, have no tags; a panic is caught, and leaves the variable that was to be made without a value.
-/

namespace Verif.Borrow
open Spec

variable {R : Rules} {N : Nat} {ε α : Type}

/-- A reference to the bytes `lo .. hi`. -/
structure Held where
  tag : Tag
  lo : Nat
  hi : Nat

/-- Its bytes. -/
def Held.bytes (h : Held) (s : ArrayString N) : Bytes := (s.array.take h.hi).drop h.lo

/-- The variables. -/
abbrev Vars := List (Option Held)

def Vars.get (vars : Vars) (k : Nat) : Option Held := vars[k]?.join

/-- `let r = s.as_str();` (arraystring.rs:336-341) -/
def takeText (self : Tag) : M (World R N) ε Held := do
  let (a, n) ← asStr self
  let s ← get
  let _ ← M.lift s.asStr
  pure ⟨a, 0, n⟩

/-- `let r: &[u8] = s.as_ref();` (implementations.rs:57-68) -/
def takeBytes (self : Tag) : M (World R N) ε Held := do
  let (a, n) ← asRefBytes self
  let s ← get
  let _ ← M.lift s.asRefBytes
  pure ⟨a, 0, n⟩

/-- `let r = &s[i];` (implementations.rs:376-452) -/
def takeSlice (self : Tag) (i : IdxU8) : M (World R N) ε Held := do
  let (a, x, y, _) ← indexRef self i
  pure ⟨a, x, y⟩

/-- `let m = s.as_mut_str();` (arraystring.rs:354-359), which fails as it does when nothing is changed
through the reference. -/
def takeMut (caller : Tag) : M (World R N) ε Held := do
  let (u, n) ← asMutStr caller
  plain (ArrayString.asMutStr id)
  pure ⟨u, 0, n⟩

/-- `let m = &mut s[i];` (implementations.rs:308-374) -/
def takeMutSlice (caller : Tag) (i : IdxU8) : M (World R N) ε Held := do
  let (v, x, y) ← callMut caller fun self => indexMutOn self i
  let v ← retagUnique v x y false
  pure ⟨v, x, y⟩

/-- `let m = &mut m[x..y];`, by `str::index_mut`. -/
def takePart (h : Held) (x y : Nat) : M (World R N) ε Held := do
  readBoundary h.tag h.lo (h.hi - h.lo) x
  readBoundary h.tag h.lo (h.hi - h.lo) y
  let s ← get
  let _ ← M.lift (Str.index (h.bytes s) x y)
  let v ← throughRaw h.tag h.lo h.hi (h.lo + x) (h.lo + y)
  pure ⟨v, h.lo + x, h.lo + y⟩

/-- What an edit through a `&mut str` does.  Leaving something that is not a text of the same length would be
undefined behaviour on the caller's side. -/
def editBytes (h : Held) (f : Bytes → Bytes) : M (ArrayString N) ε Unit := do
  let s ← M.self
  let t := h.bytes s
  M.lift (if (f t).length = t.length ∧ Str.validUtf8 (f t) then .ok () else .ub)
  M.setSelf { s with array := s.array.take h.lo ++ f t ++ s.array.drop h.hi }

/-- An edit through a `&mut str`. -/
def editHeld (h : Held) (e : Edit) : M (World R N) ε Out := do
  readAt h.tag h.lo h.hi
  writeAt h.tag h.lo h.hi
  plain (editBytes h e.onBytes)
  pure .unit

/-- A look at a `&str` or a `&[u8]`. -/
def readHeld (h : Held) : M (World R N) ε Out := do
  readAt h.tag h.lo h.hi
  let s ← get
  pure (.str (h.bytes s))

/-- The reference to the whole string that a text is taken from. -/
def origin (caller : Tag) (vars : Vars) : Option Nat → Option Tag
  | none => some caller
  | some k => (vars.get k).map (·.tag)

/-- What a statement does: it has an answer, or makes a variable.  `none`: a variable that it uses has no
value. -/
def act (caller arg : Tag) (vars : Vars) :
    Statement → Option (M (World R N) Failure Out) ⊕ Option (M (World R N) Failure Held)
  | .call op => .inl (some (exec caller arg op))
  | .share => .inr (some do
      let t ← retagShared caller 0 (N + 1) false
      pure ⟨t, 0, N + 1⟩)
  | .ask k op => .inl ((vars.get k).map fun h => exec h.tag arg op)
  | .text f => .inr ((origin caller vars f).map takeText)
  | .bytes f => .inr ((origin caller vars f).map takeBytes)
  | .slice f i => .inr ((origin caller vars f).map fun t => takeSlice t i)
  | .read k => .inl ((vars.get k).map readHeld)
  | .mutText => .inr (some (takeMut caller))
  | .mutSlice i => .inr (some (takeMutSlice caller i))
  | .mutPart k x y => .inr ((vars.get k).map fun h => takePart h x y)
  | .edit k e => .inl ((vars.get k).map fun h => editHeld h e)
  | .peek k => .inr ((vars.get k).map fun h => do
      let t ← retagShared h.tag h.lo h.hi false
      pure ⟨t, h.lo, h.hi⟩)

/-- The texts that a statement reads through the caller's `&str`. -/
def stmtTexts : Statement → List (List Char)
  | .call op | .ask _ op => texts op
  | _ => []

/-- The value of a variable that is made. -/
def made : Res ε Held → Option Held
  | .ok h => some h
  | _ => none

/-- Perform one statement: its answer, the variables and the memory after it. -/
def perform (caller arg : Tag) (p : Statement) (vars : Vars) (w : World R N) :
    Option (Res Failure Out) × Vars × World R N :=
  match act caller arg vars p with
  | .inl none => (none, vars, w)
  | .inl (some m) => let (r, w) := m w; (some r, vars, w)
  | .inr none => (none, vars ++ [none], w)
  | .inr (some m) => let (r, w) := m w; (some (r >>= fun _ => .ok .unit), vars ++ [made r], w)

/-- Perform a program. -/
def performAll (caller arg : Tag) : List Statement → Vars → World R N →
    List (Option (Res Failure Out)) × Vars × World R N
  | [], vars, w => ([], vars, w)
  | p :: ps, vars, w =>
    let (a, vars, w) := perform caller arg p vars w
    let (as, vars, w) := performAll caller arg ps vars w
    (a :: as, vars, w)

/-- What the program sees of an outcome, if it sees it. -/
def seen? : Option (Res Failure Out) → Option (Option Answer)
  | none => some none
  | some r => r.seen.map some

/-- Perform the first `n` statements of a program that chooses them by the answers so far. -/
def play (caller arg : Tag) (f : Plan) : Nat → List (Option Answer) → Vars → World R N →
    List (Option (Res Failure Out)) × Vars × World R N
  | 0, _, vars, w => ([], vars, w)
  | n + 1, seen, vars, w =>
    match f seen with
    | none => ([], vars, w)
    | some p =>
      let (r, vars, w) := perform caller arg p vars w
      match seen? r with
      | none => ([r], vars, w)
      | some a =>
        let (rs, vars, w) := play caller arg f n (seen ++ [a]) vars w
        (r :: rs, vars, w)

end Verif.Borrow
