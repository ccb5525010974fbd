import Verif.Model.Traits
import Verif.Model.History

/-! # `CacheString` (`src/lib.rs`, module `cache_string`)

`#[inline]` and the diesel derives are omitted (for the latter see `Model/Integration.lean`). -/

namespace Verif
open Spec

variable {ε κ ω η α : Type}

/-- lib.rs:157 `CACHE_STRING_SIZE`. -/
abbrev cacheStringSize : Nat := 63

/-- lib.rs:161-168 `struct CacheString(ArrayString<63>)`. -/
structure CacheString where
  inner : ArrayString cacheStringSize
deriving DecidableEq, Repr

namespace CacheString

/-! ## Constructors -/

/-- lib.rs:180-182 `new`. -/
def new : CacheString := ⟨ArrayString.new⟩

/-- lib.rs:162 derived `Default`. -/
def default : CacheString := ⟨ArrayString.default⟩

/-- lib.rs:162 derived `Clone` (and `Copy`). -/
def clone (c : CacheString) : CacheString := ⟨c.inner⟩

/-- lib.rs:202-204 `try_from_str`. -/
def tryFromStr (s : Bytes) : Res OutOfBounds CacheString := do
  let a ← ArrayString.tryFromStr s
  pure ⟨a⟩

/-- lib.rs:223-225 `from_str_truncate`. -/
def fromStrTruncate (s : Bytes) : Res ε CacheString := do
  let a ← ArrayString.fromStrTruncate s
  pure ⟨a⟩

/-- lib.rs:243-247 `try_from_iterator`. -/
def tryFromIterator (it : Iter κ Bytes) (k : κ) : Res OutOfBounds (CacheString × κ) := do
  let (a, k) ← ArrayString.tryFromIterator it k
  pure (⟨a⟩, k)

/-- lib.rs:269-271 `from_iterator_truncate`. -/
def fromIteratorTruncate (it : Iter κ ArrayString.AsRefTwice) (k : κ) : Res ε (CacheString × κ) := do
  let (a, k) ← ArrayString.fromIteratorTruncate it k
  pure (⟨a⟩, k)

/-- lib.rs:290-292 `try_from_chars`. -/
def tryFromChars (it : Iter κ Char) (k : κ) : Res OutOfBounds (CacheString × κ) := do
  let (a, k) ← ArrayString.tryFromChars it k
  pure (⟨a⟩, k)

/-- lib.rs:311-313 `from_chars_truncate`. -/
def fromCharsTruncate (it : Iter κ Char) (k : κ) : Res ε (CacheString × κ) := do
  let (a, k) ← ArrayString.fromCharsTruncate it k
  pure (⟨a⟩, k)

/-- lib.rs:338-340 `try_from_utf16`. -/
def tryFromUtf16 (l : List UInt16) : Res Error CacheString := do
  let a ← ArrayString.tryFromUtf16 l
  pure ⟨a⟩

/-- lib.rs:365-367 `from_utf16_truncate`. -/
def fromUtf16Truncate (l : List UInt16) : Res Utf16 CacheString := do
  let a ← ArrayString.fromUtf16Truncate l
  pure ⟨a⟩

/-- lib.rs:391-393 `from_utf16_lossy_truncate`. -/
def fromUtf16LossyTruncate (l : List UInt16) : Res ε CacheString := do
  let a ← ArrayString.fromUtf16LossyTruncate l
  pure ⟨a⟩

/-- lib.rs:405-407 `capacity`. -/
def capacity : Nat := cacheStringSize

/-- lib.rs:486-490 `FromIterator<char>`. -/
def fromIterChars (it : Iter κ Char) (k : κ) : Res ε (CacheString × κ) := do
  let (a, k) ← ArrayString.fromIterChars it k
  pure (⟨a⟩, k)

/-- lib.rs:492-496 `FromIterator<&str>`. -/
def fromIterStrs (it : Iter κ ArrayString.AsRefTwice) (k : κ) : Res ε (CacheString × κ) := do
  let (a, k) ← ArrayString.fromIterStrs it k
  pure (⟨a⟩, k)

/-- lib.rs:544-551 `FromStr`. -/
def fromStr (s : Bytes) : Res OutOfBounds CacheString := do
  let a ← ArrayString.tryFromStr s
  pure ⟨a⟩

/-- lib.rs:596-600 `From<ArrayString<63>>`. -/
def fromArray (a : ArrayString cacheStringSize) : CacheString := ⟨a⟩

/-- lib.rs:602-606 `From<&str>`. -/
def from_ (s : Bytes) : Res ε CacheString := do
  let a ← ArrayString.from_ s
  pure ⟨a⟩

/-! ## Methods and traits -/

/-- lib.rs:470-477 `Deref`: `&self` methods of `ArrayString` are called through it. -/
def deref (c : CacheString) : ArrayString cacheStringSize := c.inner

/-- lib.rs:479-484 `DerefMut`: `&mut self` methods of `ArrayString` are called through it. -/
def derefMut (m : M (ArrayString cacheStringSize) ε α) : M CacheString ε α := fun c =>
  ((m c.inner).1, ⟨(m c.inner).2⟩)

/-- lib.rs:429-431 `split_off`. -/
def splitOff (at_ : Nat) : M CacheString Error CacheString := do
  let a ← derefMut (ArrayString.splitOff at_)
  pure ⟨a⟩

/-- lib.rs:434-439 `Debug`. -/
def debug (dbgStr : Bytes → Fmt.Dbg) (dbgU8 : UInt8 → Fmt.Dbg) (c : CacheString) : Fmt.Dbg := fun sink o =>
  Fmt.debugTuple sink o (lit "CacheString") [c.inner.debug dbgStr dbgU8]

/-- lib.rs:441-446 `Hash`. -/
def hash (H : Hasher η) (c : CacheString) (h : η) : Res ε η := c.inner.hash H h

/-- lib.rs:448-453 `PartialEq`. -/
def eq (c d : CacheString) : Res ε Bool := c.inner.eq d.inner

/-- lib.rs:456-461 `Ord`. -/
def cmp (c d : CacheString) : Res ε Ordering := c.inner.cmp d.inner

/-- lib.rs:463-468 `PartialOrd`. -/
def partialCmp (c d : CacheString) : Res ε (Option Ordering) := do
  let o ← c.cmp d
  pure (some o)

/-- lib.rs:498-502 `Extend<char>`. -/
def extendChars (it : Iter κ Char) (k : κ) : M CacheString ε κ := derefMut (ArrayString.extendChars it k)

/-- lib.rs:504-508 `Extend<&char>`. -/
def extendCharRefs (it : Iter κ (Ref Char)) (k : κ) : M CacheString ε κ :=
  derefMut (ArrayString.extendCharRefs it k)

/-- lib.rs:510-514 `Extend<&str>`. -/
def extendStrs (it : Iter κ ArrayString.AsRefTwice) (k : κ) : M CacheString ε κ :=
  derefMut (ArrayString.extendStrs it k)

/-- lib.rs:516-521 `Display`. -/
def display (sink : Sink ω) (o : FmtOpts) (c : CacheString) : M ω FmtError Unit := c.inner.display sink o

/-- lib.rs:523-528 `AsRef<str>`. -/
def asRefStr (c : CacheString) : Res ε Bytes := c.inner.asRefStr

/-- lib.rs:530-535 `AsMut<str>`. -/
def asMut (edit : Bytes → Bytes) : M CacheString ε Unit := derefMut (ArrayString.asMut edit)

/-- lib.rs:573-578 `BorrowMut<str>`. -/
def borrowMut (edit : Bytes → Bytes) : M CacheString ε Unit := derefMut (ArrayString.borrowMut edit)

/-- lib.rs:537-542 `AsRef<[u8]>`. -/
def asRefBytes (c : CacheString) : Res ε Bytes := c.inner.asRefBytes

/-- lib.rs:553-558 `PartialEq<str>`. -/
def eqStr (c : CacheString) (other : Bytes) : Res ε Bool := c.inner.eqStr other

/-- lib.rs:560-565 `PartialEq<&str>`. -/
def eqStrRef (c : CacheString) (other : Ref Bytes) : Res ε Bool := c.inner.eqStrRef other

/-- lib.rs:567-572 `Borrow<str>`. -/
def borrow (c : CacheString) : Res ε Bytes := c.inner.borrow

/-- lib.rs:580-587 `Add<&str>`. -/
def add (c : CacheString) (other : Bytes) : Res ε CacheString := do
  let a ← c.inner.add other
  pure ⟨a⟩

/-- lib.rs:589-594 `Write::write_str`. -/
def writeStr (slice : Bytes) : M CacheString FmtError Unit := derefMut (ArrayString.writeStr slice)

/-- A `CacheString` as a `dyn fmt::Write`. -/
def sink : Sink CacheString := ⟨writeStr⟩

/-- `fmt::Write::write_fmt` (default method), i.e. `write!(c, ..)`. -/
def writeFmt (ps : List (Fmt.Piece CacheString)) : M CacheString FmtError Unit := Fmt.write sink ps

/-- lib.rs:608-648 the six `IndexMut` impls. -/
def indexMut (i : IdxU8) (edit : Bytes → Bytes) : M CacheString ε Unit := derefMut (ArrayString.indexMut i edit)

/-- lib.rs:650-702 the six `Index` impls. -/
def index (c : CacheString) (i : IdxU8) : Res ε Bytes := c.inner.index i

/-! ## Histories (the driver of `Model/History.lean`, for `CacheString`) -/

/-- Observe the outcome of a method. -/
def call [Kind ε] (m : M CacheString ε α) (out : α → Out) : M CacheString Failure Out := do
  let a ← M.mapErr Kind.kind m
  pure (out a)

/-- Observe the outcome of a constructor, and keep the string it made. -/
def construct [Kind ε] (r : Res ε α) (get : α → CacheString) : M CacheString Failure Out := do
  let a ← M.lift (r.mapErr Kind.kind)
  M.setSelf (get a)
  pure .unit

/-- Observe the outcome of a `&self` method. -/
def query [Kind ε] (f : CacheString → Res ε α) (out : α → Out) : M CacheString Failure Out := do
  let s ← M.self
  let a ← M.lift ((f s).mapErr Kind.kind)
  pure (out a)

/-- Perform one call.  What `CacheString` does not define itself is called through `Deref` and
`DerefMut`. -/
def exec (op : Op) : M CacheString Failure Out :=
  match op with
  | .new => construct (ε := Error) (.ok CacheString.new) id
  | .default => construct (ε := Error) (.ok CacheString.default) id
  | .tryFromStr w => construct (tryFromStr (utf8 w)) id
  | .parse w => construct (fromStr (utf8 w)) id
  | .fromStrTruncate w => construct (ε := Error) (fromStrTruncate (utf8 w)) id
  | .from_ w => construct (ε := Error) (CacheString.from_ (utf8 w)) id
  | .tryFromIterator ws => construct (tryFromIterator scriptIter (ws.map (Option.map utf8))) Prod.fst
  | .fromIteratorTruncate ws => construct (ε := Error) (fromIteratorTruncate scriptIter
      (ws.map (Option.map fun p => ⟨utf8 p.1, utf8 p.2⟩))) Prod.fst
  | .collectStrs ws => construct (ε := Error) (fromIterStrs scriptIter
      (ws.map (Option.map fun w => ⟨utf8 w, utf8 w⟩))) Prod.fst
  | .tryFromChars w => construct (tryFromChars scriptIter w) Prod.fst
  | .fromCharsTruncate w => construct (ε := Error) (fromCharsTruncate scriptIter w) Prod.fst
  | .collectChars w => construct (ε := Error) (fromIterChars scriptIter w) Prod.fst
  | .tryFromUtf16 l => construct (tryFromUtf16 l) id
  | .fromUtf16Truncate l => construct (fromUtf16Truncate l) id
  | .fromUtf16LossyTruncate l => construct (ε := Error) (fromUtf16LossyTruncate l) id
  | .tryPushStr w => call (derefMut (ArrayString.tryPushStr (utf8 w))) fun _ => .unit
  | .pushStrTruncate w => call (ε := Error) (derefMut (ArrayString.pushStrTruncate (utf8 w))) fun _ => .unit
  | .tryPush c => call (derefMut (ArrayString.tryPush c)) fun _ => .unit
  | .truncate n => call (derefMut (ArrayString.truncate n)) fun _ => .unit
  | .pop => call (ε := Error) (derefMut ArrayString.pop) .optChar
  | .trim => call (ε := Error) (derefMut ArrayString.trim) fun _ => .unit
  | .remove i => call (derefMut (ArrayString.remove i)) .char
  | .retain f => call (ε := Error) (derefMut (ArrayString.retain (logged f) [])) fun _ => .unit
  | .tryInsert i c => call (derefMut (ArrayString.tryInsert i c)) fun _ => .unit
  | .tryInsertStr i w => call (derefMut (ArrayString.tryInsertStr i (utf8 w))) fun _ => .unit
  | .insertStrTruncate i w => call (derefMut (ArrayString.insertStrTruncate i (utf8 w))) fun _ => .unit
  | .clear => call (ε := Error) (derefMut ArrayString.clear) fun _ => .unit
  | .drain r es => call (ε := Error) (do
      let d ← derefMut (ArrayString.drain r)
      let (os, d) ← M.lift ((drainEnds es).onLocal d)
      let b ← M.lift d.asStr
      pure (os, b)) fun p => .drained p.1 p.2
  | .splitOff i => call (ε := Error) (do
      let t ← splitOff i
      M.lift t.deref.asStr) .str
  | .replaceRange r w => call (derefMut (ArrayString.replaceRange r (utf8 w))) fun _ => .unit
  | .extendChars w => call (ε := Error) (extendChars scriptIter w) fun _ => .unit
  | .extendStrs ws => call (ε := Error) (extendStrs scriptIter (ws.map (Option.map fun w => ⟨utf8 w, utf8 w⟩)))
      fun _ => .unit
  | .add w => do
      let s ← M.self
      construct (ε := Error) (s.add (utf8 w)) id
  | .writeStr w => call (writeStr (utf8 w)) fun _ => .unit
  | .writeFmt ws => call (writeFmt (ws.map fun w => .lit (utf8 w))) fun _ => .unit
  | .index i => query (ε := Error) (fun s => s.index i) .str
  | .indexMut i e => call (ε := Error) (indexMut i e.onBytes) fun _ => .unit
  | .asMutStr e => call (ε := Error) (derefMut (ArrayString.asMutStr e.onBytes)) fun _ => .unit
  | .asStr => query (ε := Error) (fun s => s.deref.asStr) .str
  | .asBytes => query (ε := Error) (fun s => s.asRefBytes) .str
  | .display => query (ε := FmtError) (fun s => (do
      let ((), out) ← (s.display collect {}).onLocal []
      pure out)) .str
  | .len => query (ε := Error) (fun s => .ok s.deref.len) .nat
  | .isEmpty => query (ε := Error) (fun s => s.deref.isEmpty) .bool
  | .capacity => query (ε := Error) (fun _ => .ok CacheString.capacity) .nat
  | .eqStr w => query (ε := Error) (fun s => s.eqStr (utf8 w)) .bool
  | .hash => query (ε := Error) (fun s => s.hash traceHasher []) .str

/-- Perform a history of calls. -/
def runOps : List Op → CacheString → List (Res Failure Out) × CacheString
  | [], s => ([], s)
  | op :: ops, s =>
    let (r, s) := exec op s
    let (rs, s) := runOps ops s
    (r :: rs, s)

end CacheString
end Verif
