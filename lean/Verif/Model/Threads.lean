import Verif.Model.BorrowOps

/-!
# The functions that take `&self`, one step at a time

A `&ArrayString` may be used by several threads at once, so what a function with `&self` does is written again
here, as a sequence of steps between which other threads may act.  There is no step that writes.  The functions
of `Model/Borrow.lean` and `Model/BorrowOps.lean` that take `&self` are these, run without a break
(`C60_reads`).
-/

namespace Verif.Borrow
open Spec

/-- A program that makes shared references, reads through them and ends their protection. -/
inductive Reader (N : Nat) (ε α : Type) where
  /-- It has ended. -/
  | done (r : Res ε α)
  /-- `&*t` -/
  | retag (t : Tag) (lo hi : Nat) (protect : Bool) (k : Tag → Reader N ε α)
  | read (t : Tag) (lo hi : Nat) (k : Reader N ε α)
  | release (t : Tag) (lo hi : Nat) (k : Reader N ε α)
  /-- What the string holds; only meaningful after a read. -/
  | look (k : ArrayString N → Reader N ε α)

namespace Reader
variable {R : Rules} {N : Nat} {ε ε' α β : Type}

protected def bind (p : Reader N ε α) (f : α → Reader N ε β) : Reader N ε β :=
  match p with
  | .done (.ok a) => f a
  | .done (.err e) => .done (.err e)
  | .done .panic => .done .panic
  | .done .ub => .done .ub
  | .done .diverge => .done .diverge
  | .retag t lo hi protect k => .retag t lo hi protect fun u => (k u).bind f
  | .read t lo hi k => .read t lo hi (k.bind f)
  | .release t lo hi k => .release t lo hi (k.bind f)
  | .look k => .look fun s => (k s).bind f

instance : Monad (Reader N ε) where
  pure a := .done (.ok a)
  bind := Reader.bind

/-- Change the outcome. -/
def onEnd (p : Reader N ε α) (f : Res ε α → Reader N ε' β) : Reader N ε' β :=
  match p with
  | .done r => f r
  | .retag t lo hi protect k => .retag t lo hi protect fun u => (k u).onEnd f
  | .read t lo hi k => .read t lo hi (k.onEnd f)
  | .release t lo hi k => .release t lo hi (k.onEnd f)
  | .look k => .look fun s => (k s).onEnd f

def mapErr (f : ε → ε') (p : Reader N ε α) : Reader N ε' α := p.onEnd fun r => .done (r.mapErr f)

/-! ## Running -/

/-- One step; a program that breaks the rules ends with undefined behaviour. -/
def step (p : Reader N ε α) (w : World R N) : Reader N ε α × World R N :=
  match p with
  | .done r => (.done r, w)
  | .retag t lo hi protect k =>
    match (retagShared t lo hi protect : M (World R N) ε Tag) w with
    | (.ok u, w) => (k u, w)
    | (_, w) => (.done .ub, w)
  | .read t lo hi k =>
    match (readAt t lo hi : M (World R N) ε Unit) w with
    | (.ok (), w) => (k, w)
    | (_, w) => (.done .ub, w)
  | .release t lo hi k =>
    match (Borrow.release t lo hi : M (World R N) ε Unit) w with
    | (.ok (), w) => (k, w)
    | (_, w) => (.done .ub, w)
  | .look k => (k w.str, w)

/-- All the steps, without a break. -/
def run (p : Reader N ε α) : M (World R N) ε α :=
  match p with
  | .done r => M.lift r
  | .retag t lo hi protect k => do
    let u ← retagShared t lo hi protect
    (k u).run
  | .read t lo hi k => do
    readAt t lo hi
    k.run
  | .release t lo hi k => do
    Borrow.release t lo hi
    k.run
  | .look k => do
    let s ← get
    (k s).run

/-- Read `n` bytes one by one. -/
def readEach (t : Tag) (lo : Nat) (n : Nat) (k : Reader N ε α) : Reader N ε α :=
  match n with
  | 0 => k
  | n + 1 => .read t lo (lo + 1) (readEach t (lo + 1) n k)

/-- The same program, reading byte by byte. -/
def bytewise (p : Reader N ε α) : Reader N ε α :=
  match p with
  | .done r => .done r
  | .retag t lo hi protect k => .retag t lo hi protect fun u => (k u).bytewise
  | .read t lo hi k => readEach t lo (hi - lo) k.bytewise
  | .release t lo hi k => .release t lo hi k.bytewise
  | .look k => .look fun s => (k s).bytewise

/-! ## The functions -/

def retagShared (t : Tag) (lo hi : Nat) (protect : Bool) : Reader N ε Tag :=
  .retag t lo hi protect pure

def readAt (t : Tag) (lo hi : Nat) : Reader N ε Unit := .read t lo hi (pure ())

def get : Reader N ε (ArrayString N) := .look pure

def lift (r : Res ε α) : Reader N ε α := .done r

/-- The protector ends when the function returns or panics. -/
def protecting (t : Tag) (lo hi : Nat) (body : Reader N ε α) : Reader N ε α := body.onEnd fun
  | .ub => .done .ub
  | .diverge => .done .diverge
  | r => .release t lo hi (.done r)

/-- Pass a `&` to a function. -/
def passShared (t : Tag) (lo hi : Nat) (body : Tag → Reader N ε α) : Reader N ε α := do
  let u ← retagShared t lo hi true
  protecting u lo hi (body u)

/-- Pass a `&` through a function that gives back a `&` to the part `lo' .. hi'` of it. -/
def through (t : Tag) (lo hi lo' hi' : Nat) : Reader N ε Tag := do
  let v ← passShared t lo hi fun u => retagShared u lo' hi' false
  retagShared v lo' hi' false

/-- Call a function with `&self`. -/
def callShared (self : Tag) (body : Tag → Reader N ε α) : Reader N ε α := do
  let t ← retagShared self 0 (N + 1) false
  passShared t 0 (N + 1) body

/-- The same for a function that gives back a reference to the text, and its length. -/
def callRef (self : Tag) (body : Tag → Reader N ε (Tag × Nat)) : Reader N ε (Tag × Nat) := do
  let (a, n) ← callShared self body
  let a ← retagShared a 0 n false
  pure (a, n)

/-- arraystring.rs:719-724 `len`. -/
def len (self : Tag) : Reader N ε Nat := callShared self fun self => do
  readAt self N (N + 1)
  let s ← get
  pure s.len

/-- implementations.rs:57-68 `AsRef<[u8]>::as_ref`. -/
def asRefBytes (self : Tag) : Reader N ε (Tag × Nat) := callRef self fun self => do
  let _ ← len self
  let a ← retagShared self 0 N false
  let a ← through a 0 N 0 N
  let n ← len self
  let a ← through a 0 N 0 n
  pure (a, n)

/-- implementations.rs:23-36 `AsRef<str>::as_ref`. -/
def asRefStr (self : Tag) : Reader N ε (Tag × Nat) := callRef self fun self => do
  let (a, n) ← asRefBytes self
  readAt a 0 n
  let (a, n) ← asRefBytes self
  let a ← through a 0 n 0 n
  pure (a, n)

/-- arraystring.rs:336-341 `as_str`. -/
def asStr (self : Tag) : Reader N ε (Tag × Nat) := callRef self asRefStr

/-- `str::is_char_boundary`. -/
def readBoundary (t : Tag) (lo n idx : Nat) : Reader N ε Unit :=
  passShared t lo (lo + n) fun t => if idx ≠ 0 ∧ idx < n then readAt t (lo + idx) (lo + idx + 1) else pure ()

/-- The text, looked at through a `&str`. -/
def lookText (self : Tag) : Reader N ε Nat := do
  let (a, n) ← asStr self
  readAt a 0 n
  pure n

/-- implementations.rs:108-117, 152-161 and 223-232: `Display`, `Hash` and `PartialEq<str>`. -/
def reading (caller : Tag) : Reader N ε Unit := callShared caller fun self => do
  let (a, n) ← asStr self
  passShared a 0 n fun a => readAt a 0 n

/-- implementations.rs:376-452 the `Index` impls. -/
def index (caller : Tag) (i : IdxU8) : Reader N ε Bytes := do
  let (a, x, y, t) ← callShared caller fun self => do
    let (a, n) ← asStr self
    let s ← get
    let b ← lift s.asStr
    let (a, x, y, t) ← passShared a 0 n fun a =>
      match i.toUsize.resolve b.length with
      | none => lift .panic
      | some (x, y) => do
        readBoundary a 0 n x
        readBoundary a 0 n y
        let t ← lift (Str.index b x y)
        let a ← retagShared a x y false
        pure (a, x, y, t)
    let a ← retagShared a x y false
    pure (a, x, y, t)
  let a ← retagShared a x y false
  readAt a x y
  pure t

/-! ## Calls -/

/-- Observe the outcome of a method. -/
def call [Kind ε] (p : Reader N ε α) (out : α → Out) : Reader N Failure Out := do
  let a ← mapErr Kind.kind p
  pure (out a)

/-- Call a method with `&self`, which uses tags as `p` does, and returns what the plain method `f` returns. -/
def query [Kind ε] (p : Reader N ε Unit) (f : ArrayString N → Res ε α) (out : α → Out) : Reader N Failure Out :=
  call (do
    p
    let s ← get
    lift (f s)) out

/-- Perform one call with `&self`; the others are not for a `&ArrayString`. -/
def exec (self arg : Tag) (op : Op) : Option (Reader N Failure Out) :=
  match op with
  | .index i => some (call (ε := Error) (index self i) .str)
  | .asStr => some (query (ε := Error) (discard (lookText self)) (fun s => s.asStr) .str)
  | .asBytes => some (query (ε := Error) (do
      let (a, n) ← asRefBytes self
      readAt a 0 n) (fun s => s.asRefBytes) .str)
  | .display => some (query (ε := FmtError) (reading self) (fun s => (do
      let ((), out) ← (s.display collect {}).onLocal []
      pure out)) .str)
  | .len => some (query (ε := Error) (discard (len self)) (fun s => .ok s.len) .nat)
  | .isEmpty => some (query (ε := Error) (discard (asRefStr self)) (fun s => s.isEmpty) .bool)
  | .capacity => some (query (ε := Error) (pure ()) (fun _ => .ok (ArrayString.capacity N)) .nat)
  | .eqStr w => some (query (ε := Error)
      (passShared arg (N + 1) (N + 1 + (utf8 w).length) fun other => do
        reading self
        readAt other (N + 1) (N + 1 + (utf8 w).length)) (fun s => s.eqStr (utf8 w)) .bool)
  | .hash => some (query (ε := Error) (reading self) (fun s => s.hash traceHasher []) .str)
  | _ => none

end Reader

/-! ## Threads -/

variable {R : Rules} {N : Nat}

/-- A thread that makes some calls through the same `&ArrayString`, with texts behind `arg`, and keeps what they
give.  A call that panics is caught; undefined behaviour is not. -/
def thread (self arg : Tag) : List Op → Reader N Empty (List (Res Failure Out))
  | [] => pure []
  | op :: ops =>
    match Reader.exec self arg op with
    | none => .done .panic
    | some p => p.bytewise.onEnd fun
      | .ub => .done .ub
      | .diverge => .done .diverge
      | r => do
        let rs ← thread self arg ops
        pure (r :: rs)

/-- The next thread to act does its next step. -/
def turn (ts : List (Reader N Empty α)) (w : World R N) (i : Nat) : List (Reader N Empty α) × World R N :=
  match ts[i]? with
  | none => (ts, w)
  | some p =>
    let (p, w) := p.step w
    (ts.set i p, w)

/-- The threads act in the order of the schedule. -/
def interleave (ts : List (Reader N Empty α)) (w : World R N) : List Nat → List (Reader N Empty α) × World R N
  | [] => (ts, w)
  | i :: is =>
    let (ts, w) := turn ts w i
    interleave ts w is

end Verif.Borrow
