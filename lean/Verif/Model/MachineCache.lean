import Verif.Model.Machine
import Verif.Model.BorrowCache

/-!
# The calls of a `CacheString` as loads and stores on bytes

`Model/BorrowCache.lean` has the methods of `CacheString` with a string beside the memory; here they are on
nothing but bytes, as `Model/Machine.lean` has those of `ArrayString`.

Simplifications: those of the two models.
-/

namespace Verif.Machine.Cache
open Spec
open Borrow (Rules Tag)

variable {R : Rules} {N : Nat} {ε α : Type}

/-- lib.rs:470-477 `deref`, called on the borrow that auto-dereferencing makes. -/
def deref (caller : Tag) : M (Mem R N) ε Tag := do
  let t ← retagShared caller 0 (N + 1) false
  through t 0 (N + 1) 0 (N + 1)

/-- lib.rs:479-484 `deref_mut`, called on the borrow that auto-dereferencing makes; not two-phase. -/
def derefMut (caller : Tag) : M (Mem R N) ε Tag := do
  let t ← retagUnique caller 0 (N + 1) false
  throughMut t 0 (N + 1) 0 (N + 1)

/-- lib.rs:202-204 `try_from_str`, 544-551 `FromStr`. -/
def tryFromStr (arg : Tag) (k : Nat) : M (Mem R N) OutOfBounds (ArrayString N) :=
  passShared arg (N + 1) (N + 1 + k) fun arg => Machine.tryFromStr arg (N + 1) (N + 1 + k)

/-- lib.rs:223-225 `from_str_truncate`, 602-606 `From<&str>`. -/
def fromStrTruncate (arg : Tag) (k : Nat) : M (Mem R N) ε (ArrayString N) :=
  passShared arg (N + 1) (N + 1 + k) fun arg => Machine.fromStrTruncate arg k

/-- lib.rs:429-431 `split_off`. -/
def splitOff (self : Tag) (at_ : Nat) : M (Mem R N) Error (ArrayString N) :=
  callMut self fun self => Machine.splitOff self at_

/-- lib.rs:498-514 the `Extend` impls. -/
def extend (self : Tag) (make : M (Mem R N) ε (ArrayString N)) : M (Mem R N) ε Unit :=
  callMut self fun self => Machine.extend self make

/-- lib.rs:589-594 `write_str`. -/
def writeStr (self arg : Tag) (k : Nat) : M (Mem R N) FmtError Unit :=
  passShared arg (N + 1) (N + 1 + k) fun arg => callMut self fun self => Machine.writeStr self arg k

/-- `fmt::write` with literals only, to the `&mut dyn fmt::Write` with the given tag. -/
def writeAll (self arg : Tag) : List Bytes → M (Mem R N) FmtError Unit
  | [] => pure ()
  | s :: l => do
    if s.isEmpty then pure () else do
      place s
      callMut self fun self => writeStr self arg s.length
    writeAll self arg l

/-- lib.rs:580-587 `Add::add`; the operand is a copy of the caller's string. -/
def add (caller arg : Tag) (k : Nat) : M (Mem R N) ε (ArrayString N) := do
  let s ← loadString caller
  passShared arg (N + 1) (N + 1 + k) fun arg => addTo s arg k

/-- lib.rs:516-521 `Display`, 441-446 `Hash`. -/
def reading (caller : Tag) : M (Mem R N) ε Bytes := callShared caller Machine.reading

/-- lib.rs:553-558 `PartialEq<str>`. -/
def eqStr (caller arg : Tag) (k : Nat) : M (Mem R N) ε Bool :=
  passShared arg (N + 1) (N + 1 + k) fun arg => callShared caller fun self =>
    passShared arg (N + 1) (N + 1 + k) fun arg => do
      let a ← Machine.reading self
      let b ← load arg (N + 1) k
      pure (Str.eq a b)

/-- lib.rs:537-542 `AsRef<[u8]>`. -/
def asRefBytes (caller : Tag) : M (Mem R N) ε (Tag × Nat) := callRef caller Machine.asRefBytes

/-- lib.rs:650-702 the `Index` impls: the slice they return, and where it is. -/
def indexRef (caller : Tag) (i : IdxU8) : M (Mem R N) ε (Tag × Nat × Nat) := do
  let (a, x, y) ← callShared caller fun self => Machine.indexRef self i
  let a ← retagShared a x y false
  pure (a, x, y)

/-- An index and a look at the slice. -/
def index (caller : Tag) (i : IdxU8) : M (Mem R N) ε Bytes := do
  let (a, x, y) ← indexRef caller i
  load a x (y - x)

/-- lib.rs:608-648 the `IndexMut` impls. -/
def indexMutOn (self : Tag) (i : IdxU8) : M (Mem R N) ε (Tag × Nat × Nat) := do
  let (v, x, y) ← callMut self fun self => Machine.indexMutOn self i
  let v ← retagUnique v x y false
  pure (v, x, y)

/-- An edit of a slice. -/
def editSlice (caller : Tag) (i : IdxU8) (edit : Bytes → Bytes) : M (Mem R N) ε Unit := do
  let (v, x, y) ← callMut caller fun self => indexMutOn self i
  let v ← retagUnique v x y false
  rewrite v x (y - x) edit

/-- Perform one call. -/
def exec (caller arg : Tag) (op : Op) : M (Mem R N) Failure Out :=
  match op with
  | .new | .default | .tryFromIterator _ | .fromIteratorTruncate _ | .collectStrs _ | .tryFromChars _
  | .fromCharsTruncate _ | .collectChars _ | .tryFromUtf16 _ | .fromUtf16Truncate _ | .fromUtf16LossyTruncate _
  | .capacity => Machine.exec caller arg op
  | .tryFromStr w | .parse w => given w fun k => construct caller (tryFromStr arg k)
  | .fromStrTruncate w | .from_ w => given w fun k => construct (ε := Error) caller (fromStrTruncate arg k)
  | .tryPushStr _ | .pushStrTruncate _ | .tryPush _ | .truncate _ | .pop | .trim | .remove _ | .retain _
  | .tryInsert _ _ | .tryInsertStr _ _ | .insertStrTruncate _ _ | .clear | .drain _ _ | .replaceRange _ _
  | .asMutStr _ => do
    let v ← derefMut caller
    Machine.exec v arg op
  | .splitOff i => call (do
      let t ← callMut caller fun self => splitOff self i
      let (b, _) ← withLocal t 0 0 fun t => do
        let v ← deref t
        look v
      pure b) .str
  | .extendChars w => method (ε := Error) caller (fun self => extend self (fromCharsTruncate w)) fun _ => .unit
  | .extendStrs ws => method (ε := Error) caller (fun self => extend self
      (fromIteratorTruncate arg (ws.map (Option.map fun w => ⟨utf8 w, utf8 w⟩)))) fun _ => .unit
  | .add w => given w fun k => construct (ε := Error) caller (add caller arg k)
  | .writeStr w => given w fun k => method caller (fun self => writeStr self arg k) fun _ => .unit
  | .writeFmt ws => method caller (fun self => callMut self fun self => writeAll self arg (ws.map utf8))
      fun _ => .unit
  | .index i => call (ε := Error) (index caller i) .str
  | .indexMut i e => call (ε := Error) (editSlice caller i e.onBytes) fun _ => .unit
  | .asStr => call (ε := Error) (do
      let v ← deref caller
      look v) .str
  | .len => call (ε := Error) (do
      let v ← deref caller
      len v) .nat
  | .isEmpty => call (ε := Error) (do
      let v ← deref caller
      let (_, n) ← asRefStr v
      pure (n == 0)) .bool
  | .asBytes => call (ε := Error) (do
      let (a, n) ← asRefBytes caller
      load a 0 n) .str
  | .display => call (ε := FmtError) (do
      let b ← reading caller
      M.lift do
        let ((), out) ← (Fmt.write collect [.arg {} (fun o => Fmt.pad collect o b)]).onLocal []
        pure out) .str
  | .eqStr w => given w fun k => call (ε := Error) (eqStr caller arg k) .bool
  | .hash => call (ε := Error) (do
      let b ← reading caller
      pure (Str.hash traceHasher b [])) .str

/-- Perform the calls one after the other, all through the same references. -/
def runOps (caller arg : Tag) : List Op → Mem R N → List (Res Failure Out) × Mem R N
  | [], m => ([], m)
  | op :: ops, m =>
    let (r, m) := exec caller arg op m
    let (rs, m) := runOps caller arg ops m
    (r :: rs, m)

end Verif.Machine.Cache
