import Verif.Spec.Text

/-!
# Execution model for the Rust code

`Res` is the outcome of a computation, `M σ ε α` a computation on a mutable place of type `σ`.
These definitions model Rust itself (and `core`), not a file of the repository.
-/

namespace Verif

export Spec (Bytes)

/-- Outcome of running a piece of Rust code.
* `ok a`: it returned `a` (for a `Result`-returning function: `Ok(a)`)
* `err e`: it returned `Err(e)`
* `panic`: it panicked (integer overflow, explicit panic, panic in a user callback)
* `ub`: an `unsafe` operation was used outside its contract
* `diverge`: it never returns -/
inductive Res (ε α : Type) where
  | ok (a : α)
  | err (e : ε)
  | panic
  | ub
  | diverge
deriving DecidableEq, Repr

namespace Res
variable {ε ε' α β : Type}

/-- Sequencing; every abnormal outcome (including `Err`, through `?`) stops the computation. -/
protected def bind (x : Res ε α) (f : α → Res ε β) : Res ε β :=
  match x with
  | .ok a => f a
  | .err e => .err e
  | .panic => .panic
  | .ub => .ub
  | .diverge => .diverge

instance : Monad (Res ε) where
  pure := .ok
  bind := Res.bind

/-- `Result::map_err`. -/
def mapErr (f : ε → ε') : Res ε α → Res ε' α
  | .ok a => .ok a
  | .err e => .err (f e)
  | .panic => .panic
  | .ub => .ub
  | .diverge => .diverge

/-- Observe a `Result` instead of propagating it (`let _ = ..`, `.is_err()`, `match`). -/
def attempt : Res ε α → Res ε' (Except ε α)
  | .ok a => .ok (.ok a)
  | .err e => .ok (.error e)
  | .panic => .panic
  | .ub => .ub
  | .diverge => .diverge

end Res

/-- `diverge` is the least outcome: loops are least fixed points. -/
noncomputable instance {ε α : Type} : Lean.Order.CCPO (Res ε α) :=
  inferInstanceAs (Lean.Order.CCPO (Lean.Order.FlatOrder (Res.diverge : Res ε α)))

/-- `Into`/`From` between error types, as used by the `?` operator. -/
class ErrFrom (ε ε' : Type) where
  from_ : ε → ε'

instance {ε : Type} : ErrFrom ε ε := ⟨id⟩

/-- A computation with exclusive access to a place of type `σ` (`&mut self`).  The contents of the
place are reported for every outcome, so the state at a crash point is visible. -/
def M (σ ε α : Type) := σ → Res ε α × σ

namespace M
variable {σ ε ε' α β : Type}

protected def pure (a : α) : M σ ε α := fun s => (.ok a, s)

protected def bind (x : M σ ε α) (f : α → M σ ε β) : M σ ε β := fun s =>
  match x s with
  | (.ok a, s') => f a s'
  | (.err e, s') => (.err e, s')
  | (.panic, s') => (.panic, s')
  | (.ub, s') => (.ub, s')
  | (.diverge, s') => (.diverge, s')

instance : Monad (M σ ε) where
  pure := M.pure
  bind := M.bind

/-- Read the place. -/
def self : M σ ε σ := fun s => (.ok s, s)

/-- Overwrite the place (`*self = s`). -/
def setSelf (s : σ) : M σ ε Unit := fun _ => (.ok (), s)

/-- Run a computation that does not touch the place. -/
def lift (r : Res ε α) : M σ ε α := fun s => (r, s)

/-- The `?` operator on a computation that does not touch the place. -/
def try_ [ErrFrom ε ε'] (r : Res ε α) : M σ ε' α := fun s => (r.mapErr ErrFrom.from_, s)

/-- The `?` operator on a `&mut self` call. -/
def tryM [ErrFrom ε ε'] (m : M σ ε α) : M σ ε' α := fun s =>
  ((m s).1.mapErr ErrFrom.from_, (m s).2)

/-- `Result::map_err` on a `&mut self` call. -/
def mapErr (f : ε → ε') (m : M σ ε α) : M σ ε' α := fun s => ((m s).1.mapErr f, (m s).2)

/-- Observe the `Result` of a `&mut self` call instead of propagating it. -/
def attempt (m : M σ ε α) : M σ ε' (Except ε α) := fun s => ((m s).1.attempt, (m s).2)

/-- Run a `&mut self` method on a local variable, giving the outcome with the final contents. -/
def onLocal (m : M σ ε α) (s : σ) : Res ε (α × σ) :=
  match m s with
  | (.ok a, s') => .ok (a, s')
  | (.err e, _) => .err e
  | (.panic, _) => .panic
  | (.ub, _) => .ub
  | (.diverge, _) => .diverge

end M

/-! ## Machine integers -/

/-- The widths of `usize` that there are. -/
inductive Width where
  | w16
  | w32
  | w64

def Width.bits : Width → Nat
  | .w16 => 16
  | .w32 => 32
  | .w64 => 64

instance : Inhabited Width := ⟨.w64⟩

/-- The width of `usize` on the target.  Nothing can be proved about its value, so what is proved holds of
each. -/
opaque width : Width

/-- `usize::MAX` -/
def usizeMax : Nat := 2 ^ width.bits - 1

/-- `usize::saturating_add`. -/
def saturatingAdd (a b : Nat) : Nat := min (a + b) usizeMax

variable {ε : Type}

/-- How the program is built. -/
structure Profile where
  /-- `debug-assertions` -/
  debugAssertions : Bool
  /-- `overflow-checks` -/
  overflowChecks : Bool

instance : Inhabited Profile := ⟨⟨true, true⟩⟩

/-- The profile of the build.  As with `width`, what is proved holds of each. -/
opaque profile : Profile

/-- An operation of `usize` or `u8` overflows; `wrapped` is its result without overflow checks. -/
def overflow {α : Type} (wrapped : α) : Res ε α := if profile.overflowChecks then .panic else .ok wrapped

/-- `a + b` on `usize`. -/
def addUsize (a b : Nat) : Res ε Nat := if a + b ≤ usizeMax then .ok (a + b) else overflow ((a + b) % (usizeMax + 1))

/-- `a - b` on `usize`. -/
def subUsize (a b : Nat) : Res ε Nat := if b ≤ a then .ok (a - b) else overflow (a + (usizeMax + 1) - b)

/-- `a - b` on `u8`. -/
def subU8 (a b : UInt8) : Res ε UInt8 :=
  if b.toNat ≤ a.toNat then .ok (a - b) else overflow (a - b)

/-- `debug_assert!(b)`, which does nothing in a build without debug assertions. -/
def debugAssert (b : Bool) : Res ε Unit := if b then .ok () else if profile.debugAssertions then .panic else .ok ()

/-! ## Raw memory: a `[u8; n]` seen through pointers -/

/-- `ptr.add(off)`: the result must stay inside the allocation or one past its end. -/
def ptrAdd (size off : Nat) : Res ε Nat := if off ≤ size then .ok off else .ub

/-- `core::ptr::copy(mem + src, mem + dst, n)` inside one array: both areas must lie inside it; they
may overlap, the source being read as if completely before the write. -/
def memCopy (mem : Bytes) (src dst n : Nat) : Res ε Bytes :=
  if src + n ≤ mem.length ∧ dst + n ≤ mem.length then
    .ok (mem.take dst ++ (mem.drop src).take n ++ mem.drop (dst + n))
  else .ub

/-- `core::ptr::copy_nonoverlapping(src.as_ptr(), mem + dst, n)` from another allocation. -/
def memCopyFrom (mem src : Bytes) (dst n : Nat) : Res ε Bytes :=
  if n ≤ src.length ∧ dst + n ≤ mem.length then
    .ok (mem.take dst ++ src.take n ++ mem.drop (dst + n))
  else .ub

/-- `slice.get_unchecked(..n)` on a byte slice. -/
def getUncheckedTo (b : Bytes) (n : Nat) : Res ε Bytes :=
  if n ≤ b.length then .ok (b.take n) else .ub

/-! ## Iterators -/

/-- What one call of `Iterator::next` does; `panic` when the caller's code panics. -/
inductive Step (κ α : Type) where
  | done (k : κ)
  | item (a : α) (k : κ)
  | panic

/-- An iterator with internal state `κ`; possibly infinite. -/
abbrev Iter (κ α : Type) := κ → Step κ α

/-- Iterating over a finite sequence (`slice::iter`, `Vec::into_iter`, `str::chars`, ..). -/
def listIter {α : Type} : Iter (List α) α
  | [] => .done []
  | a :: l => .item a l

end Verif
