import Verif.Model.BorrowOps
import Verif.Model.CacheString

/-!
# `CacheString` with tags on every reference

The methods of `CacheString` (`src/lib.rs`, module `cache_string`) as `Model/BorrowOps.lean` has those of
`ArrayString`.  The struct has one field, the `ArrayString<63>`, at its start and of its size (C39), so that
a reference to the struct and one to the field cover the same bytes `0 .. N + 1`; `N` is 63.

Each method of its own retags its arguments, calls the method of the field, and what that gives back is
retagged.  The other methods are called on what `deref` and `deref_mut` give back.

Simplifications: those of `Model/BorrowOps.lean`; a `CacheString` that is given back by value is the
`ArrayString` inside.
-/

namespace Verif.Borrow.Cache
open Spec

variable {R : Rules} {N : Nat} {ε α : Type}

/-! ## `Deref` -/

/-- lib.rs:470-477 `deref`, called on the borrow that auto-dereferencing makes. -/
def deref (caller : Tag) : M (World R N) ε Tag := do
  let t ← retagShared caller 0 (N + 1) false
  through t 0 (N + 1) 0 (N + 1)

/-- lib.rs:479-484 `deref_mut`, called on the borrow that auto-dereferencing makes; not two-phase. -/
def derefMut (caller : Tag) : M (World R N) ε Tag := do
  let t ← retagUnique caller 0 (N + 1) false
  throughMut t 0 (N + 1) 0 (N + 1)

/-! ## Constructors that take a text -/

/-- lib.rs:202-204 `try_from_str`, 544-551 `FromStr`. -/
def tryFromStr (arg : Tag) (string : Bytes) : M (World R N) OutOfBounds (ArrayString N) :=
  passShared arg (N + 1) (N + 1 + string.length) fun arg =>
    Borrow.tryFromStr arg (N + 1) (N + 1 + string.length) string

/-- lib.rs:223-225 `from_str_truncate`, 602-606 `From<&str>`. -/
def fromStrTruncate (arg : Tag) (string : Bytes) : M (World R N) ε (ArrayString N) :=
  passShared arg (N + 1) (N + 1 + string.length) fun arg => Borrow.fromStrTruncate arg string

/-! ## Methods -/

/-- lib.rs:429-431 `split_off`. -/
def splitOff (self : Tag) (at_ : Nat) : M (World R N) Error (ArrayString N) :=
  callMut self fun self => Borrow.splitOff self at_

/-- lib.rs:498-514 the `Extend` impls. -/
def extend (self : Tag) (make : M (World R N) ε (ArrayString N)) : M (World R N) ε Unit :=
  callMut self fun self => Borrow.extend self make

/-- lib.rs:589-594 `write_str`. -/
def writeStr (self arg : Tag) (slice : Bytes) : M (World R N) FmtError Unit :=
  passShared arg (N + 1) (N + 1 + slice.length) fun arg => callMut self fun self => Borrow.writeStr self arg slice

/-- `fmt::write` with literals only, to the `&mut dyn fmt::Write` with the given tag. -/
def writeAll (self arg : Tag) : List Bytes → M (World R N) FmtError Unit
  | [] => pure ()
  | s :: l => do
    if s.isEmpty then pure () else callMut self fun self => writeStr self arg s
    writeAll self arg l

/-- lib.rs:580-587 `Add::add`; the operand is a copy of the caller's string. -/
def add (caller arg : Tag) (other : Bytes) : M (World R N) ε (ArrayString N) := do
  readAt caller 0 (N + 1)
  let s ← get
  passShared arg (N + 1) (N + 1 + other.length) fun arg => addTo s arg other

/-- lib.rs:516-521 `Display`, 441-446 `Hash`. -/
def reading (caller : Tag) : M (World R N) ε Unit := callShared caller Borrow.reading

/-- lib.rs:553-558 `PartialEq<str>`. -/
def eqStr (caller arg : Tag) (other : Bytes) : M (World R N) ε Unit :=
  passShared arg (N + 1) (N + 1 + other.length) fun arg => callShared caller fun self =>
    passShared arg (N + 1) (N + 1 + other.length) fun arg => do
      Borrow.reading self
      readAt arg (N + 1) (N + 1 + other.length)

/-- lib.rs:523-528 `AsRef<str>`, 567-572 `Borrow<str>`. -/
def asRefStr (caller : Tag) : M (World R N) ε (Tag × Nat) := callRef caller Borrow.asRefStr

/-- lib.rs:537-542 `AsRef<[u8]>`. -/
def asRefBytes (caller : Tag) : M (World R N) ε (Tag × Nat) := callRef caller Borrow.asRefBytes

/-- lib.rs:650-702 the `Index` impls. -/
def indexRef (caller : Tag) (i : IdxU8) : M (World R N) ε (Tag × Nat × Nat × Bytes) := do
  let (a, x, y, t) ← callShared caller fun self => Borrow.indexRef self i
  let a ← retagShared a x y false
  pure (a, x, y, t)

/-- An index and a look at the slice. -/
def index (caller : Tag) (i : IdxU8) : M (World R N) ε Bytes := do
  let (a, x, y, t) ← indexRef caller i
  readAt a x y
  pure t

/-- lib.rs:608-648 the `IndexMut` impls. -/
def indexMutOn (self : Tag) (i : IdxU8) : M (World R N) ε (Tag × Nat × Nat) := do
  let (v, x, y) ← callMut self fun self => Borrow.indexMutOn self i
  let v ← retagUnique v x y false
  pure (v, x, y)

/-- An edit of a slice. -/
def editSlice (caller : Tag) (i : IdxU8) (edit : Bytes → Bytes) : M (World R N) ε Unit := do
  let (v, x, y) ← callMut caller fun self => indexMutOn self i
  let v ← retagUnique v x y false
  readAt v x y
  writeAt v x y
  plain (ArrayString.indexMut i edit)

/-- lib.rs:530-535 `AsMut<str>`, 573-578 `BorrowMut<str>`, with the `&mut self` tagged `self`. -/
def asMutOn (self : Tag) : M (World R N) ε (Tag × Nat) := do
  let t ← retagTwoPhase self
  passRef t Borrow.asMutOn

/-- An edit of the text through `as_mut`. -/
def editText (caller : Tag) (edit : Bytes → Bytes) : M (World R N) ε Unit := do
  let t ← retagTwoPhase caller
  let (u, n) ← passRef t asMutOn
  readAt u 0 n
  writeAt u 0 n
  plain (ArrayString.asMut edit)

/-! ## Calls -/

/-- Perform one call, as the plain `CacheString.exec`. -/
def exec (caller arg : Tag) (op : Op) : M (World R N) Failure Out :=
  match op with
  | .new | .default | .tryFromIterator _ | .fromIteratorTruncate _ | .collectStrs _ | .tryFromChars _
  | .fromCharsTruncate _ | .collectChars _ | .tryFromUtf16 _ | .fromUtf16Truncate _ | .fromUtf16LossyTruncate _
  | .capacity => Borrow.exec caller arg op
  | .tryFromStr w | .parse w => construct caller (tryFromStr arg (utf8 w))
  | .fromStrTruncate w | .from_ w => construct (ε := Error) caller (fromStrTruncate arg (utf8 w))
  | .tryPushStr _ | .pushStrTruncate _ | .tryPush _ | .truncate _ | .pop | .trim | .remove _ | .retain _
  | .tryInsert _ _ | .tryInsertStr _ _ | .insertStrTruncate _ _ | .clear | .drain _ _ | .replaceRange _ _
  | .asMutStr _ => do
    let v ← derefMut caller
    Borrow.exec v arg op
  | .splitOff i => call (do
      let t ← callMut caller fun self => splitOff self i
      let _ ← withLocal t 0 0 fun t => do
        let v ← deref t
        look v
      M.lift t.asStr) .str
  | .extendChars w => method (ε := Error) caller (fun self => extend self (fromCharsTruncate w)) fun _ => .unit
  | .extendStrs ws => method (ε := Error) caller (fun self => extend self
      (fromIteratorTruncate arg (ws.map (Option.map fun w => ⟨utf8 w, utf8 w⟩)))) fun _ => .unit
  | .add w => construct (ε := Error) caller (add caller arg (utf8 w))
  | .writeStr w => method caller (fun self => writeStr self arg (utf8 w)) fun _ => .unit
  | .writeFmt ws => method caller (fun self => callMut self fun self => writeAll self arg (ws.map utf8))
      fun _ => .unit
  | .index i => call (ε := Error) (index caller i) .str
  | .indexMut i e => call (ε := Error) (editSlice caller i e.onBytes) fun _ => .unit
  | .asStr => query (ε := Error) (do
      let v ← deref caller
      discard (look v)) (fun s => s.asStr) .str
  | .len => query (ε := Error) (do
      let v ← deref caller
      discard (len v)) (fun s => .ok s.len) .nat
  | .isEmpty => query (ε := Error) (do
      let v ← deref caller
      discard (Borrow.asRefStr v)) (fun s => s.isEmpty) .bool
  | .asBytes => query (ε := Error) (do
      let (a, n) ← asRefBytes caller
      readAt a 0 n) (fun s => s.asRefBytes) .str
  | .display => query (ε := FmtError) (reading caller) (fun s => (do
      let ((), out) ← (s.display collect {}).onLocal []
      pure out)) .str
  | .eqStr w => query (ε := Error) (eqStr caller arg (utf8 w)) (fun s => s.eqStr (utf8 w)) .bool
  | .hash => query (ε := Error) (reading caller) (fun s => s.hash traceHasher []) .str

/-- Perform the calls one after the other, all through the same references. -/
def runOps (caller arg : Tag) : List Op → World R N → List (Res Failure Out) × World R N
  | [], w => ([], w)
  | op :: ops, w =>
    let (r, w) := exec caller arg op w
    let (rs, w) := runOps caller arg ops w
    (r :: rs, w)

end Verif.Borrow.Cache
