import Verif.Spec.History

/-!
# Programs that keep references to the string

A program of a client that has a `&mut ArrayString<N>` (called `s` below), makes calls
through it, and keeps what it gets from it in variables: `&ArrayString<N>`, `&str`, `&[u8]` and `&mut str`.
The variables are numbered in the order they are made.

`check` is the rule of the borrow checker for such programs: which variables may still be used.
`see` says what the program should see.  A `&str` shows the text that there was when it was made.
A program is a list of statements, or chooses each by the answers so far (`Plan`).
-/

namespace Verif.Spec
open Verif

/-- The calls that take `&self`. -/
def Op.shared : Op → Bool
  | .index _ | .asStr | .asBytes | .display | .len | .isEmpty | .capacity | .eqStr _ | .hash => true
  | _ => false

/-- A statement.  Where there is an `Option Nat`, `none` is `s` and `some k` a `&ArrayString<N>` in the
variable `k`. -/
inductive Statement where
  /-- a call through `s` -/
  | call (op : Op)
  /-- `let r = &*s;` -/
  | share
  /-- a call that takes `&self`, through a `&ArrayString<N>` -/
  | ask (k : Nat) (op : Op)
  /-- `let r: &str = s.as_str();` -/
  | text (of : Option Nat)
  /-- `let r: &[u8] = s.as_ref();` -/
  | bytes (of : Option Nat)
  /-- `let r: &str = &s[i];` -/
  | slice (of : Option Nat) (i : IdxU8)
  /-- look at all of a `&str` or `&[u8]` -/
  | read (k : Nat)
  /-- `let m: &mut str = s.as_mut_str();` -/
  | mutText
  /-- `let m: &mut str = &mut s[i];` -/
  | mutSlice (i : IdxU8)
  /-- `let m: &mut str = &mut m[x..y];` -/
  | mutPart (k x y : Nat)
  /-- change a text through a `&mut str` -/
  | edit (k : Nat) (e : Edit)
  /-- `let r: &str = &*m;` -/
  | peek (k : Nat)

/-- The arguments are values of their types. -/
def Statement.Ok : Statement → Prop
  | .call op | .ask _ op => op.Ok
  | _ => True

/-! ## The borrow checker -/

/-- The variables that may be used, `count` being the number of all. -/
structure Scope where
  count : Nat
  /-- `&mut str`, newest first, each made from the next -/
  muts : List Nat
  /-- `&str` and `&[u8]` -/
  texts : List Nat
  /-- `&ArrayString<N>` -/
  strs : List Nat

/-- Nothing borrowed. -/
def Scope.start : Scope := ⟨0, [], [], []⟩

/-- `s` is used as a `&mut`: this ends all borrows. -/
def Scope.useMut (c : Scope) : Scope := ⟨c.count, [], [], []⟩

/-- `s` is used as a `&`: this ends the mutable borrows, and what is made from them. -/
def Scope.useShared (c : Scope) : Scope := if c.muts = [] then c else c.useMut

/-- The `&mut str` in `k` is used to write: this ends what is made from it. -/
def Scope.useMutOf (c : Scope) (k : Nat) : Scope := ⟨c.count, c.muts.dropWhile (· ≠ k), [], []⟩

/-- It is used to read: this ends the mutable borrows made from it, and what is made from them. -/
def Scope.useSharedOf (c : Scope) (k : Nat) : Scope := if c.muts.head? = some k then c else c.useMutOf k

def Scope.addMut (c : Scope) : Scope := ⟨c.count + 1, c.count :: c.muts, c.texts, c.strs⟩
def Scope.addText (c : Scope) : Scope := ⟨c.count + 1, c.muts, c.count :: c.texts, c.strs⟩
def Scope.addStr (c : Scope) : Scope := ⟨c.count + 1, c.muts, c.texts, c.count :: c.strs⟩

/-- The string is used as a `&`, directly or through a variable. -/
def Scope.useFrom (c : Scope) : Option Nat → Option Scope
  | none => some c.useShared
  | some k => if k ∈ c.strs then some c else none

/-- What may be used after the statement; `none` if the statement uses what may not be used. -/
def Statement.check (c : Scope) : Statement → Option Scope
  | .call op => some (if op.shared then c.useShared else c.useMut)
  | .share => some c.useShared.addStr
  | .ask k op => if k ∈ c.strs ∧ op.shared then some c else none
  | .text f | .bytes f | .slice f _ => (c.useFrom f).map Scope.addText
  | .read k => if k ∈ c.texts then some c else none
  | .mutText | .mutSlice _ => some c.useMut.addMut
  | .mutPart k _ _ => if k ∈ c.muts then some (c.useMutOf k).addMut else none
  | .edit k _ => if k ∈ c.muts then some (c.useMutOf k) else none
  | .peek k => if k ∈ c.muts then some (c.useSharedOf k).addText else none

/-- The borrow checker accepts the program. -/
def Accepted (c : Scope) : List Statement → Prop
  | [] => True
  | p :: ps => match p.check c with
    | some c => Accepted c ps
    | none => False

instance : (c : Scope) → (ps : List Statement) → Decidable (Accepted c ps)
  | _, [] => .isTrue trivial
  | c, p :: ps => by
    unfold Accepted
    cases p.check c with
    | none => exact .isFalse id
    | some c => exact instDecidableAccepted c ps

/-! ## What the program sees -/

/-- What is in a variable. -/
inductive Val where
  | str
  | text (b : Bytes)
  | mut (lo hi : Nat)
deriving DecidableEq, Repr

/-- The text of the string, and the variables; `none` for a variable that was not made, because the
statement that makes it panicked, or had no variable to make it from. -/
structure Client where
  text : List Char
  vars : List (Option Val)

def Client.get (c : Client) (k : Nat) : Option Val := c.vars[k]?.join

/-- A statement that makes a variable. -/
def Client.make (c : Client) (v : Option Val) : Option Answer × Client :=
  (some (if v.isSome then .returned .unit else .panicked), ⟨c.text, c.vars ++ [v]⟩)

/-- The same when the variable that it is made from is missing. -/
def Client.miss (c : Client) : Option Answer × Client := (none, ⟨c.text, c.vars ++ [none]⟩)

/-- Make a `&str` or `&[u8]`. -/
def Client.take (c : Client) (from_ : Option Nat) (b : Option Bytes) : Option Answer × Client :=
  match from_ with
  | none => c.make (b.map .text)
  | some k => if c.get k = some .str then c.make (b.map .text) else c.miss

/-- The answer of a statement, if there is one, and the state after it. -/
def Statement.see (N : Nat) (c : Client) : Statement → Option Answer × Client
  | .call op => (some (step N op c.text).1, ⟨(step N op c.text).2, c.vars⟩)
  | .share => c.make (some .str)
  | .ask k op => if c.get k = some .str then (some (step N op c.text).1, c) else (none, c)
  | .text f | .bytes f => c.take f (some (utf8 c.text))
  | .slice f i =>
    let r := idxRange (byteLen c.text) i
    c.take f ((cut2 c.text r.1 r.2).map fun p => utf8 p.2.1)
  | .read k =>
    match c.get k with
    | some (.text b) => (some (.returned (.str b)), c)
    | _ => (none, c)
  | .mutText => c.make (some (.mut 0 (byteLen c.text)))
  | .mutSlice i =>
    let r := idxRange (byteLen c.text) i
    c.make ((cut2 c.text r.1 r.2).map fun _ => .mut r.1 r.2)
  | .mutPart k x y =>
    match c.get k with
    | some (.mut lo hi) =>
      match cut2 c.text lo hi with
      | some (_, m, _) => c.make ((cut2 m x y).map fun _ => .mut (lo + x) (lo + y))
      | none => c.miss
    | _ => c.miss
  | .edit k e =>
    match c.get k with
    | some (.mut lo hi) =>
      match cut2 c.text lo hi with
      | some (p, m, q) => (some (.returned .unit), ⟨p ++ e.apply m ++ q, c.vars⟩)
      | none => (none, c)
    | _ => (none, c)
  | .peek k =>
    match c.get k with
    | some (.mut lo hi) =>
      match cut2 c.text lo hi with
      | some (_, m, _) => c.make (some (.text (utf8 m)))
      | none => c.miss
    | _ => c.miss

/-- The answers of a program, and the state after it. -/
def seeAll (N : Nat) : List Statement → Client → List (Option Answer) × Client
  | [], c => ([], c)
  | p :: ps, c =>
    let (a, c) := p.see N c
    let (as, c) := seeAll N ps c
    (a :: as, c)

/-! ## Programs with branches and loops -/

/-- The next statement is chosen by the answers so far; `none` when the program ends. -/
abbrev Plan := List (Option Answer) → Option Statement

/-- The borrow checker, which does not know the answers, accepts the first `n` statements on every path. -/
def Plan.Accepted (f : Plan) : Nat → List (Option Answer) → Scope → Prop
  | 0, _, _ => True
  | n + 1, seen, c =>
    match f seen with
    | none => True
    | some p => match p.check c with
      | some c => ∀ a, Plan.Accepted f n (seen ++ [a]) c
      | none => False

/-- The first `n` statements that the program makes, as the answers should be. -/
def Plan.trace (N : Nat) (f : Plan) : Nat → List (Option Answer) → Client → List Statement
  | 0, _, _ => []
  | n + 1, seen, c =>
    match f seen with
    | none => []
    | some p => p :: Plan.trace N f n (seen ++ [(p.see N c).1]) (p.see N c).2

end Verif.Spec
