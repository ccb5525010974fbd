import Verif.Model.Traits
import Verif.Spec.Deque

/-!
# What callers get from `Drain` as an iterator

drain.rs:98-120 implements `next` and `next_back` only; every other method of `Iterator` and
`DoubleEndedIterator` is the default one of core, written from memory of
`core/src/iter/traits/{iterator,double_ended}.rs` in terms of these two.  Methods come in pairs, one
for each end (`try_fold`/`try_rfold`, `nth`/`nth_back`, ..); the methods of `rev()` are those of the
other end.  Closures may panic; the `Drain` as it is then left is part of the outcome where the method
takes it by reference.

`client` runs any program whatever that uses a `Drain` through these methods and `as_str`.
-/

namespace Verif
open Spec

/-- What a closure given to `try_fold` did: `Continue`, `Break`, or panic. -/
inductive Flow (γ β : Type) where
  | go (b : β)
  | stop (c : γ)
  | panic
deriving DecidableEq, Repr

/-- What a program does next with an iterator: it is finished, takes from an end, or looks at `as_str`. -/
inductive Move (κ α : Type) where
  | stop (a : α)
  | ask (e : End) (k : Option Char → κ)
  | look (k : Bytes → κ)

namespace ArrayString.Drain
variable {N : Nat} {ε α β γ κ : Type}

/-- drain.rs:98-120. -/
def pull : End → M (Drain N) ε (Option Char)
  | .front => next
  | .back => nextBack

/-- A program in state `q`, which does as `c` says, with the `Drain` it uses. -/
def client (c : κ → Move κ α) (q : κ) (d : Drain N) : Res ε (α × Drain N) :=
  match c q with
  | .stop a => .ok (a, d)
  | .ask e k =>
    match (pull e : M (Drain N) ε (Option Char)) d with
    | (.ok o, d) => client c (k o) d
    | (.err e, _) => .err e
    | (.panic, _) => .panic
    | (.ub, _) => .ub
    | (.diverge, _) => .diverge
  | .look k =>
    match (d.asStr : Res ε Bytes) with
    | .ok b => client c (k b) d
    | .err e => .err e
    | .panic => .panic
    | .ub => .ub
    | .diverge => .diverge
partial_fixpoint

/-- `try_fold`, `try_rfold`. -/
def tryFold (e : End) (f : β → Char → Flow γ β) (acc : β) (d : Drain N) : Res ε (Flow γ β × Drain N) :=
  match (pull e : M (Drain N) ε (Option Char)) d with
  | (.ok none, d) => .ok (.go acc, d)
  | (.ok (some c), d) =>
    match f acc c with
    | .go acc => tryFold e f acc d
    | r => .ok (r, d)
  | (.err e, _) => .err e
  | (.panic, _) => .panic
  | (.ub, _) => .ub
  | (.diverge, _) => .diverge
partial_fixpoint

/-- `fold`, `rfold` (and `for c in drain`, `for_each`).  `none`: the closure panics. -/
def fold (e : End) (f : β → Char → Option β) (acc : β) (d : Drain N) : Res ε β :=
  match (pull e : M (Drain N) ε (Option Char)) d with
  | (.ok none, _) => .ok acc
  | (.ok (some c), d) =>
    match f acc c with
    | some acc => fold e f acc d
    | none => .panic
  | (.err e, _) => .err e
  | (.panic, _) => .panic
  | (.ub, _) => .ub
  | (.diverge, _) => .diverge
partial_fixpoint

/-- `size_hint`: the default knows nothing. -/
def sizeHint (_d : Drain N) : Nat × Option Nat := (0, none)

/-- `count`; `rev().count()`. -/
def count (e : End) (d : Drain N) : Res ε Nat :=
  fold e (fun n _ => if n + 1 ≤ usizeMax then some (n + 1) else if profile.overflowChecks then none else some 0) 0 d

/-- `last`; `rev().last()`. -/
def last (e : End) (d : Drain N) : Res ε (Option Char) := fold e (fun _ c => some (some c)) none d

/-- `advance_by`, `advance_back_by`: `Err` of the number of steps that could not be made. -/
def advanceBy (e : End) : Nat → M (Drain N) ε (Except Nat Unit)
  | 0 => pure (.ok ())
  | n + 1 => do
    let o ← pull e
    match o with
    | none => pure (.error (n + 1))
    | some _ => advanceBy e n

/-- `nth`, `nth_back`. -/
def nth (e : End) (n : Nat) : M (Drain N) ε (Option Char) := do
  let r ← advanceBy e n
  match r with
  | .ok () => pull e
  | .error _ => pure none

/-- Run a method that takes the `Drain` by reference and gives it back. -/
def byRef (m : Drain N → Res ε (α × Drain N)) : M (Drain N) ε α := fun d =>
  match m d with
  | .ok (a, d) => (.ok a, d)
  | .err e => (.err e, d)
  | .panic => (.panic, d)
  | .ub => (.ub, d)
  | .diverge => (.diverge, d)

/-- The outcome of a closure that does not panic, or the panic. -/
def unwound (r : Flow γ β) (go : β → α) (stop : γ → α) : M (Drain N) ε α :=
  match r with
  | .go b => pure (go b)
  | .stop c => pure (stop c)
  | .panic => M.lift .panic

/-- `all`. -/
def all (e : End) (p : Char → Option Bool) : M (Drain N) ε Bool := do
  let r ← byRef (tryFold e (fun () c => match p c with
    | some true => .go ()
    | some false => .stop ()
    | none => .panic) ())
  unwound r (fun _ => true) (fun _ => false)

/-- `any`. -/
def any (e : End) (p : Char → Option Bool) : M (Drain N) ε Bool := do
  let r ← byRef (tryFold e (fun () c => match p c with
    | some true => .stop ()
    | some false => .go ()
    | none => .panic) ())
  unwound r (fun _ => false) (fun _ => true)

/-- `find`, `rfind`. -/
def find (e : End) (p : Char → Option Bool) : M (Drain N) ε (Option Char) := do
  let r ← byRef (tryFold e (fun () c => match p c with
    | some true => .stop c
    | some false => .go ()
    | none => .panic) ())
  unwound r (fun _ => none) some

/-- `position`. -/
def position (e : End) (p : Char → Option Bool) : M (Drain N) ε (Option Nat) := do
  let r ← byRef (tryFold e (fun i c => match p c with
    | some true => .stop i
    | some false => if i + 1 ≤ usizeMax then .go (i + 1) else if profile.overflowChecks then .panic else .go 0
    | none => .panic) 0)
  unwound r (fun _ => none) some

/-- `reduce`. -/
def reduce (e : End) (f : Char → Char → Option Char) (d : Drain N) : Res ε (Option Char) :=
  match (pull e : M (Drain N) ε (Option Char)) d with
  | (.ok none, _) => .ok none
  | (.ok (some c), d) => do
    let c ← fold e f c d
    pure (some c)
  | (.err e, _) => .err e
  | (.panic, _) => .panic
  | (.ub, _) => .ub
  | (.diverge, _) => .diverge

/-- `max`: `max_by(Ord::cmp)`, which keeps the later of two equal ones. -/
def max (e : End) (d : Drain N) : Res ε (Option Char) :=
  reduce e (fun x y => some (if y.val < x.val then x else y)) d

/-- `min`: `min_by(Ord::cmp)`, which keeps the earlier of two equal ones. -/
def min (e : End) (d : Drain N) : Res ε (Option Char) :=
  reduce e (fun x y => some (if y.val < x.val then y else x)) d

/-- `collect::<Vec<char>>()`: what is pushed. -/
def collectVec (e : End) (d : Drain N) : Res ε (List Char) := fold e (fun v c => some (v ++ [c])) [] d

/-- `collect::<String>()`: the bytes of the `String`. -/
def collectString (e : End) (d : Drain N) : Res ε Bytes := fold e (fun v c => some (v ++ Str.encodeUtf8 c)) [] d

end ArrayString.Drain
end Verif
