import Verif.Model.ArrayString
import Verif.Model.Fmt

/-! # `src/implementations.rs`, `src/drain.rs` and the trait impls of `src/error.rs` -/

namespace Verif

variable {ε κ ω η α : Type} {N : Nat}

/-! ## error.rs -/

/-- The bytes of an ASCII literal. -/
def lit (s : String) : Bytes := s.toList.flatMap Str.encodeUtf8

namespace Error

/-- error.rs:34-43 `Hash for Error`. -/
def hash (H : Hasher η) (e : Error) (h : η) : η :=
  match e with
  | .utf8 => Str.hash H (lit "Utf8") h
  | .utf16 => Str.hash H (lit "Utf16") h
  | .outOfBounds => Str.hash H (lit "OutOfBounds") h

/-- error.rs:45-54 `Display for Error`: `write!` of a literal. -/
def display (sink : Sink ω) (_o : FmtOpts) (e : Error) : M ω FmtError Unit :=
  match e with
  | .utf8 => Fmt.write sink [.lit (lit "Utf8")]
  | .utf16 => Fmt.write sink [.lit (lit "Utf16")]
  | .outOfBounds => Fmt.write sink [.lit (lit "OutOfBounds")]

/-- error.rs:56-65 `Debug for Error`. -/
def debug (sink : Sink ω) (_o : FmtOpts) (e : Error) : M ω FmtError Unit :=
  match e with
  | .utf8 => Fmt.write sink [.lit (lit "Error::Utf8")]
  | .utf16 => Fmt.write sink [.lit (lit "Error::Utf16")]
  | .outOfBounds => Fmt.write sink [.lit (lit "Error::OutOfBounds")]

end Error

/-- error.rs:95-100 `Debug for Utf8`. -/
def Utf8.debug (sink : Sink ω) (_o : FmtOpts) (_ : Utf8) : M ω FmtError Unit :=
  Fmt.write sink [.lit (lit "Utf8")]
/-- error.rs:102-107 `Display for Utf8`. -/
def Utf8.display (sink : Sink ω) (_o : FmtOpts) (_ : Utf8) : M ω FmtError Unit :=
  Fmt.write sink [.lit (lit "Utf8")]
/-- error.rs:131-136 `Debug for Utf16`. -/
def Utf16.debug (sink : Sink ω) (_o : FmtOpts) (_ : Utf16) : M ω FmtError Unit :=
  Fmt.write sink [.lit (lit "Utf16")]
/-- error.rs:141-146 `Display for Utf16`. -/
def Utf16.display (sink : Sink ω) (_o : FmtOpts) (_ : Utf16) : M ω FmtError Unit :=
  Fmt.write sink [.lit (lit "Utf16")]
/-- error.rs:176-181 `Debug for OutOfBounds`. -/
def OutOfBounds.debug (sink : Sink ω) (_o : FmtOpts) (_ : OutOfBounds) : M ω FmtError Unit :=
  Fmt.write sink [.lit (lit "OutOfBounds")]
/-- error.rs:183-188 `Display for OutOfBounds`. -/
def OutOfBounds.display (sink : Sink ω) (_o : FmtOpts) (_ : OutOfBounds) : M ω FmtError Unit :=
  Fmt.write sink [.lit (lit "OutOfBounds")]

/-! ## implementations.rs -/

/-- A shared reference, where the code tells it from the value. -/
structure Ref (α : Type) where
  val : α

/-- `Iterator::cloned`. -/
def cloned (it : Iter κ (Ref α)) : Iter κ α := fun k =>
  match it k with
  | .item r k => .item r.val k
  | .done k => .done k
  | .panic => .panic

/-- A `u8` range used as an index; `RangeInclusive` has an extra flag set once it has been iterated
to its end. -/
inductive IdxU8 where
  | range (a b : UInt8)
  | from_ (a : UInt8)
  | to (b : UInt8)
  | full
  | toInclusive (b : UInt8)
  | inclusive (a b : UInt8) (exhausted : Bool)
deriving DecidableEq, Repr

/-- A `usize` range used as an index of `str`. -/
inductive IdxUsize where
  | range (a b : Nat)
  | from_ (a : Nat)
  | to (b : Nat)
  | full
  | toInclusive (b : Nat)
  | inclusive (a b : Nat) (exhausted : Bool)
deriving DecidableEq, Repr

/-- The half-open range an index means for a `str` of length `len` (`core/src/str/traits.rs` and
`core/src/range.rs`, `into_slice_range`); `none`: it panics outright (`end == usize::MAX`). -/
def IdxUsize.resolve (len : Nat) : IdxUsize → Option (Nat × Nat)
  | .range a b => some (a, b)
  | .from_ a => some (a, len)
  | .to b => some (0, b)
  | .full => some (0, len)
  | .toInclusive b => if b = usizeMax then none else some (0, b + 1)
  | .inclusive a b ex => if b = usizeMax then none else some (if ex then b + 1 else a, b + 1)

/-- implementations.rs:308-452: each impl turns its `u8` range into the `usize` range of the same
kind; `RangeInclusive` is rebuilt with `RangeInclusive::new`, so the flag is dropped. -/
def IdxU8.toUsize : IdxU8 → IdxUsize
  | .range a b => .range a.toNat b.toNat
  | .from_ a => .from_ a.toNat
  | .to b => .to b.toNat
  | .full => .full
  | .toInclusive b => .toInclusive b.toNat
  | .inclusive a b _ => .inclusive a.toNat b.toNat false

namespace ArrayString

/-- implementations.rs:12-21 `Default::default`. -/
def default : ArrayString N := new

/-- implementations.rs:70-79 `From<&str>::from`. -/
def from_ (s : Bytes) : Res ε (ArrayString N) := fromStrTruncate s

/-- implementations.rs:81-92 `FromStr::from_str`. -/
def fromStr (s : Bytes) : Res OutOfBounds (ArrayString N) := tryFromStr s

/-- implementations.rs:38-55 `AsMut<str>::as_mut`: the caller gets the text as a `&mut str` and leaves
other bytes of the same length in it.  Rust guarantees that what is left is valid UTF-8; leaving
anything else would be undefined behaviour on the caller's side. -/
def asMut (edit : Bytes → Bytes) : M (ArrayString N) ε Unit := do
  let s ← M.self
  M.lift (debugAssert (s.len ≤ N))
  let b ← M.lift (getUncheckedTo s.array s.len)
  M.lift (debugAssert (Str.validUtf8 b))
  let b ← M.lift (Str.fromUtf8Unchecked b)
  let b' := edit b
  M.lift (if b'.length = b.length ∧ Str.validUtf8 b' then .ok () else .ub)
  M.setSelf { s with array := b' ++ s.array.drop s.len }

/-- arraystring.rs:354-359 `as_mut_str`. -/
def asMutStr (edit : Bytes → Bytes) : M (ArrayString N) ε Unit := asMut edit

/-- implementations.rs:141-150 `BorrowMut<str>::borrow_mut`. -/
def borrowMut (edit : Bytes → Bytes) : M (ArrayString N) ε Unit := asMutStr edit

/-- implementations.rs:247-256 `DerefMut::deref_mut`. -/
def derefMut (edit : Bytes → Bytes) : M (ArrayString N) ε Unit := asMut edit

/-- implementations.rs:94-106 `Debug`: `debug_struct("ArrayString").field(..).field(..).finish()`.
`dbgStr` and `dbgU8` are the standard library's `Debug` of `str` and `u8`.  (The code calls `as_str`
after the name has been written.) -/
def debug (dbgStr : Bytes → Fmt.Dbg) (dbgU8 : UInt8 → Fmt.Dbg) (s : ArrayString N) : Fmt.Dbg := fun sink o => do
  let b ← M.lift s.asStr
  Fmt.debugStruct sink o (lit "ArrayString") [(lit "array", dbgStr b), (lit "size", dbgU8 s.size)]

/-- implementations.rs:108-117 `PartialEq<str>`. -/
def eqStr (s : ArrayString N) (other : Bytes) : Res ε Bool := do
  let b ← s.asStr
  pure (Str.eq b other)

/-- implementations.rs:119-128 `PartialEq<&str>`. -/
def eqStrRef (s : ArrayString N) (other : Ref Bytes) : Res ε Bool := s.eqStr other.val

/-- implementations.rs:163-172 `PartialEq`. -/
def eq (s other : ArrayString N) : Res ε Bool := do
  let a ← s.asStr
  let b ← other.asStr
  pure (Str.eq a b)

/-- implementations.rs:130-139 `Borrow<str>`. -/
def borrow (s : ArrayString N) : Res ε Bytes := s.asStr

/-- implementations.rs:234-245 `Deref`. -/
def deref (s : ArrayString N) : Res ε Bytes := s.asRefStr

/-- implementations.rs:152-161 `Hash`. -/
def hash (H : Hasher η) (s : ArrayString N) (h : η) : Res ε η := do
  let b ← s.asStr
  pure (Str.hash H b h)

/-- implementations.rs:176-185 `Ord`. -/
def cmp (s other : ArrayString N) : Res ε Ordering := do
  let a ← s.asStr
  let b ← other.asStr
  pure (Str.cmp a b)

/-- implementations.rs:187-196 `PartialOrd`. -/
def partialCmp (s other : ArrayString N) : Res ε (Option Ordering) := do
  let o ← s.cmp other
  pure (some o)

/-- implementations.rs:198-210 `Add<&str>`: consumes `self`. -/
def add (s : ArrayString N) (other : Bytes) : Res ε (ArrayString N) := do
  let ((), s) ← (pushStrTruncate other).onLocal s
  pure s

/-- implementations.rs:212-221 `fmt::Write::write_str`. -/
def writeStr (slice : Bytes) : M (ArrayString N) FmtError Unit :=
  M.mapErr (fun _ => {}) (tryPushStr slice)

/-- An `ArrayString` as a `dyn fmt::Write`. -/
def sink : Sink (ArrayString N) := ⟨writeStr⟩

/-- `fmt::Write::write_fmt` (default method), i.e. `write!(s, ..)`. -/
def writeFmt (ps : List (Fmt.Piece (ArrayString N))) : M (ArrayString N) FmtError Unit := Fmt.write sink ps

/-- implementations.rs:223-232 `Display`: `write!(f, "{}", self.as_str())`.  The inner placeholder
has default options, whatever the options `_o` of the outer formatter. -/
def display (sink : Sink ω) (_o : FmtOpts) (s : ArrayString N) : M ω FmtError Unit := do
  let b ← M.lift s.asStr
  Fmt.write sink [.arg {} (fun o => Fmt.pad sink o b)]

/-- implementations.rs:258-266 `FromIterator<char>`. -/
def fromIterChars (it : Iter κ Char) (k : κ) : Res ε (ArrayString N × κ) := fromCharsTruncate it k

/-- implementations.rs:268-276 `FromIterator<&str>`. -/
def fromIterStrs (it : Iter κ AsRefTwice) (k : κ) : Res ε (ArrayString N × κ) := fromIteratorTruncate it k

/-- implementations.rs:278-286 `Extend<char>`. -/
def extendChars (it : Iter κ Char) (k : κ) : M (ArrayString N) ε κ := do
  let ((t : ArrayString N), k) ← M.lift (fromCharsTruncate it k)
  let b ← M.lift t.asRefStr
  pushStrTruncate b
  pure k

/-- implementations.rs:288-296 `Extend<&char>`. -/
def extendCharRefs (it : Iter κ (Ref Char)) (k : κ) : M (ArrayString N) ε κ := extendChars (cloned it) k

/-- implementations.rs:298-306 `Extend<&str>`. -/
def extendStrs (it : Iter κ AsRefTwice) (k : κ) : M (ArrayString N) ε κ := do
  let ((t : ArrayString N), k) ← M.lift (fromIteratorTruncate it k)
  let b ← M.lift t.asRefStr
  pushStrTruncate b
  pure k

/-- implementations.rs:376-452 the six `Index` impls. -/
def index (s : ArrayString N) (i : IdxU8) : Res ε Bytes := do
  let b ← s.asStr
  match i.toUsize.resolve b.length with
  | none => .panic
  | some (x, y) => Str.index b x y

/-- implementations.rs:308-374 the six `IndexMut` impls, used to edit the slice in place (see
`asMutStr` for what an edit may do). -/
def indexMut (i : IdxU8) (edit : Bytes → Bytes) : M (ArrayString N) ε Unit := do
  let s ← M.self
  M.lift (debugAssert (s.len ≤ N))
  let b ← M.lift (getUncheckedTo s.array s.len)
  M.lift (debugAssert (Str.validUtf8 b))
  let b ← M.lift (Str.fromUtf8Unchecked b)
  match i.toUsize.resolve b.length with
  | none => M.lift .panic
  | some (x, y) => do
    let t ← M.lift (Str.index b x y)
    let t' := edit t
    M.lift (if t'.length = t.length ∧ Str.validUtf8 t' then .ok () else .ub)
    M.setSelf { s with array := s.array.take x ++ t' ++ s.array.drop y }

/-! ## drain.rs -/

namespace Drain

/-- drain.rs:28-35 `Default`. -/
def default : Drain N := ⟨ArrayString.default⟩

/-- Run a method of the inner string. -/
def onInner {α : Type} (m : M (ArrayString N) ε α) : M (Drain N) ε α := fun d =>
  ((m d.inner).1, ⟨(m d.inner).2⟩)

/-- drain.rs:94-96 `as_str`. -/
def asStr (d : Drain N) : Res ε Bytes := d.inner.asStr

/-- drain.rs:105-108 `Iterator::next`: `self.0.remove(0).ok()`. -/
def next : M (Drain N) ε (Option Char) := do
  let r ← M.attempt (onInner (remove 0))
  match r with
  | .ok c => pure (some c)
  | .error _ => pure none

/-- drain.rs:115-118 `DoubleEndedIterator::next_back`: `self.0.pop()`. -/
def nextBack : M (Drain N) ε (Option Char) := onInner pop

/-- drain.rs:37-45 `Debug`. -/
def debug (dbgStr : Bytes → Fmt.Dbg) (dbgU8 : UInt8 → Fmt.Dbg) (d : Drain N) : Fmt.Dbg := fun sink o =>
  Fmt.debugTuple sink o (lit "Drain") [d.inner.debug dbgStr dbgU8]

/-- drain.rs:47-55 `PartialEq`. -/
def eq (d other : Drain N) : Res ε Bool := do
  let a ← d.asStr
  let b ← other.asStr
  pure (Str.eq a b)

/-- drain.rs:58-66 `Ord`. -/
def cmp (d other : Drain N) : Res ε Ordering := do
  let a ← d.asStr
  let b ← other.asStr
  pure (Str.cmp a b)

/-- drain.rs:68-76 `PartialOrd`. -/
def partialCmp (d other : Drain N) : Res ε (Option Ordering) := do
  let o ← d.cmp other
  pure (some o)

/-- drain.rs:78-86 `Hash`. -/
def hash (H : Hasher η) (d : Drain N) (h : η) : Res ε η := do
  let b ← d.asStr
  pure (Str.hash H b h)

end Drain
end ArrayString
end Verif
