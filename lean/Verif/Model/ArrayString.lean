import Verif.Model.Str
import Verif.Model.Error

/-! # `src/arraystring.rs` and `src/utils.rs`

`debug!`/`trace!` calls are omitted: with the `logs` feature off they expand to nothing
(lib.rs:108-118).  `#[inline]` and `no_panic` attributes have no meaning in the model.
An argument `impl AsRef<str>` is the byte list its (single) `as_ref()` call returns. -/

namespace Verif

/-- arraystring.rs:22-33 `struct ArrayString<const N: usize>`.  `array` models `[u8; N]`; that its
length is `N` is part of the invariant `Holds`, and bytes past `size` are kept as they are. -/
structure ArrayString (N : Nat) where
  array : Bytes
  size : UInt8
deriving DecidableEq, Repr

/-- arraystring.rs:896-1154 `sealed::ValidCapacity`: implemented for each capacity 1 to 255. -/
class ValidCapacity (N : Nat) : Prop where
  mem : N ∈ List.range' 1 255

/-- Start or end of a range (`core::ops::Bound`). -/
inductive Bound where
  | included (t : Nat)
  | excluded (t : Nat)
  | unbounded
deriving DecidableEq, Repr

/-- A value of type `impl RangeBounds<usize>`: what `start_bound()` and `end_bound()` return. -/
structure RangeB where
  start : Bound
  stop : Bound
deriving DecidableEq, Repr

namespace RangeB
/-- `a..b` -/
def range (a b : Nat) : RangeB := ⟨.included a, .excluded b⟩
/-- `a..` -/
def from_ (a : Nat) : RangeB := ⟨.included a, .unbounded⟩
/-- `..b` -/
def to (b : Nat) : RangeB := ⟨.unbounded, .excluded b⟩
/-- `..` -/
def full : RangeB := ⟨.unbounded, .unbounded⟩
/-- `a..=b` -/
def inclusive (a b : Nat) : RangeB := ⟨.included a, .included b⟩
/-- `..=b` -/
def toInclusive (b : Nat) : RangeB := ⟨.unbounded, .included b⟩
end RangeB

variable {ε κ φ : Type} {N : Nat}

/-! ## utils.rs -/

/-- utils.rs:13-19 `is_inside_boundary`. -/
def isInsideBoundary (size limit : Nat) : Res OutOfBounds Unit :=
  if size ≤ limit then .ok () else .err {}

/-- utils.rs:35-61 `truncate_str`: the unrolled search for a character boundary. -/
def truncateStr (slice : Bytes) (size : Nat) : Res ε Bytes :=
  if slice.length ≤ size then .ok slice
  else if Str.isCharBoundary slice size then Str.getUnchecked slice 0 size
  else do
    let size ← subUsize size 1
    if Str.isCharBoundary slice size then Str.getUnchecked slice 0 size
    else do
      let size ← subUsize size 1
      if Str.isCharBoundary slice size then Str.getUnchecked slice 0 size
      else do
        let size ← subUsize size 1
        Str.getUnchecked slice 0 size

/-- utils.rs:63-70 `IntoLossy<u8> for usize`: `self as u8`, which wraps. -/
def intoLossy (n : Nat) : UInt8 := UInt8.ofNat n

namespace ArrayString

/-! ## Reading (arraystring.rs and the `AsRef` impls of implementations.rs they rely on) -/

/-- arraystring.rs:47-53 `new`. -/
def new : ArrayString N := ⟨List.replicate N 0, 0⟩

/-- arraystring.rs:368-371 `capacity`. -/
def capacity (N : Nat) : Nat := N

/-- arraystring.rs:719-724 `len`. -/
def len (s : ArrayString N) : Nat := s.size.toNat

/-- implementations.rs:57-68 `AsRef<[u8]>::as_ref`: `get_unchecked(..len)`. -/
def asRefBytes (s : ArrayString N) : Res ε Bytes := do
  debugAssert (s.len ≤ N)
  getUncheckedTo s.array s.len

/-- implementations.rs:23-36 `AsRef<str>::as_ref`: `from_utf8_unchecked`. -/
def asRefStr (s : ArrayString N) : Res ε Bytes := do
  let b ← s.asRefBytes
  debugAssert (Str.validUtf8 b)
  let b ← s.asRefBytes
  Str.fromUtf8Unchecked b

/-- arraystring.rs:336-341 `as_str`. -/
def asStr (s : ArrayString N) : Res ε Bytes := s.asRefStr

/-- `is_empty`: not defined by the crate, reached through `Deref<Target = str>`
(implementations.rs:234-245). -/
def isEmpty (s : ArrayString N) : Res ε Bool := do
  let b ← s.asRefStr
  pure b.isEmpty

/-- utils.rs:21-33 `is_char_boundary`. -/
def isCharBoundary (s : ArrayString N) (idx : Nat) : Res Utf8 Unit := do
  let b ← s.asStr
  if Str.isCharBoundary b idx then .ok () else .err {}

/-! ## Mutation -/

/-- arraystring.rs:793-797 and 846-850: the start of a range. -/
def rangeStart (r : RangeB) : Nat :=
  match r.start with
  | .included t => t
  | .excluded t => saturatingAdd t 1
  | .unbounded => 0

/-- arraystring.rs:798-802 and 851-855: the end of a range on a string of length `len`. -/
def rangeEnd (r : RangeB) (len : Nat) : Nat :=
  match r.stop with
  | .included t => saturatingAdd t 1
  | .excluded t => t
  | .unbounded => len

open M in
/-- arraystring.rs:838-892 `replace_range`.  `self.array` is written through raw pointers. -/
def replaceRange (r : RangeB) (str : Bytes) : M (ArrayString N) Error Unit := do
  let s ← self
  let start := rangeStart r
  let stop := rangeEnd r s.len
  if start = stop ∧ str.isEmpty then pure ()
  else do
    try_ (isInsideBoundary start stop)
    try_ (isInsideBoundary stop s.len)
    try_ (isInsideBoundary str.length (capacity N))
    try_ (s.isCharBoundary start)
    try_ (s.isCharBoundary stop)
    let a ← lift (addUsize s.len str.length)
    let b ← lift (addUsize a start)
    let total ← lift (subUsize b stop)
    try_ (isInsideBoundary total (capacity N))
    -- unsafe block, lines 878-889
    let cutStart ← lift (ptrAdd N start)
    let cutEnd ← lift (ptrAdd N stop)
    let strEnd ← lift (ptrAdd N (cutStart + str.length))
    let n ← lift (subUsize s.len stop)
    let mem ← lift (if cutEnd ≠ strEnd then memCopy s.array cutEnd strEnd n else .ok s.array)
    let mem ← lift (if ¬ str.isEmpty then memCopyFrom mem str cutStart str.length else .ok mem)
    -- line 890
    let a ← lift (addUsize s.len str.length)
    let b ← lift (addUsize a start)
    let total ← lift (subUsize b stop)
    setSelf ⟨mem, intoLossy total⟩

open M in
/-- arraystring.rs:389-396 `try_push_str`. -/
def tryPushStr (string : Bytes) : M (ArrayString N) OutOfBounds Unit := do
  let s ← self
  mapErr (fun _ => {}) (replaceRange (.range s.len s.len) string)

open M in
/-- arraystring.rs:416-421 `push_str_truncate`. -/
def pushStrTruncate (string : Bytes) : M (ArrayString N) ε Unit := do
  let s ← self
  let room ← lift (subUsize (capacity N) s.len)
  let t ← lift (truncateStr string room)
  let _ ← attempt (tryPushStr t)
  pure ()

/-- arraystring.rs:440-446 `try_push`. -/
def tryPush (ch : Char) : M (ArrayString N) OutOfBounds Unit :=
  tryPushStr (Str.encodeUtf8 ch)

open M in
/-- arraystring.rs:468-474 `truncate`. -/
def truncate (size : Nat) : M (ArrayString N) Utf8 Unit := do
  let s ← self
  let len := min s.len size
  lift (s.isCharBoundary len)
  setSelf { s with size := intoLossy len }

open M in
/-- arraystring.rs:489-497 `pop`. -/
def pop : M (ArrayString N) ε (Option Char) := do
  let s ← self
  let b ← lift s.asStr
  match (Str.chars b).getLast? with
  | none => pure none
  | some ch =>
    let size ← lift (subU8 s.size (intoLossy (Str.lenUtf8 ch)))
    setSelf { s with size := size }
    pure (some ch)

/-- arraystring.rs:519-525: the first loop of `trim`; `start` is its initial value. -/
def trimStart (start : Nat) : List (Nat × Char) → Nat
  | [] => start
  | (pos, c) :: rest => if ¬ Str.isWhitespace c then pos else trimStart start rest

/-- arraystring.rs:526-536: the second loop of `trim`, over the reversed character positions;
`none` is the early return that empties the string. -/
def trimEnd (start : Nat) (stop : Nat) : List (Nat × Char) → Option Nat
  | [] => some stop
  | (pos, c) :: rest =>
    if pos < start then none
    else if ¬ Str.isWhitespace c then some stop
    else trimEnd start pos rest

open M in
/-- arraystring.rs:515-540 `trim`. -/
def trim : M (ArrayString N) ε Unit := do
  let s ← self
  let b ← lift s.asStr
  let start := trimStart s.len (Str.charIndices b)
  match trimEnd start s.len (Str.charIndices b).reverse with
  | none => setSelf { s with size := 0 }
  | some stop => do
    let _ ← attempt (replaceRange (.from_ stop) [])
    let _ ← attempt (replaceRange (.to start) [])
    pure ()

/-- arraystring.rs:567-569: `while !self.as_str().is_char_boundary(end) { end += 1; }`. -/
def removeScan (s : ArrayString N) (stop : Nat) : Res Error Nat :=
  match (s.asStr : Res Error Bytes) with
  | .ok b =>
    if Str.isCharBoundary b stop then .ok stop
    else match (addUsize stop 1 : Res Error Nat) with
      | .ok stop => removeScan s stop
      | .err e => .err e
      | .panic => .panic
      | .ub => .ub
      | .diverge => .diverge
  | .err e => .err e
  | .panic => .panic
  | .ub => .ub
  | .diverge => .diverge
partial_fixpoint

open M in
/-- arraystring.rs:559-580 `remove`. -/
def remove (idx : Nat) : M (ArrayString N) Error Char := do
  let s ← self
  try_ (isInsideBoundary (saturatingAdd idx 1) s.len)
  try_ (s.isCharBoundary idx)
  let stop ← lift (if idx = s.len then .ok idx else addUsize idx 1)
  let stop ← lift (removeScan s stop)
  let b ← lift s.asStr
  match Str.get? b idx stop with
  | none => lift (.err .outOfBounds)
  | some sub =>
    match (Str.chars sub).head? with
    | none => lift (.err .utf8)
    | some ch => do
      let stop ← lift (addUsize idx (Str.lenUtf8 ch))
      replaceRange (.range idx stop) []
      pure ch

open M in
/-- arraystring.rs:656-662 `try_insert_str`. -/
def tryInsertStr (idx : Nat) (string : Bytes) : M (ArrayString N) Error Unit := do
  let s ← self
  try_ (isInsideBoundary idx s.len)
  replaceRange (.range idx idx) string

/-- arraystring.rs:626-631 `try_insert`. -/
def tryInsert (idx : Nat) (ch : Char) : M (ArrayString N) Error Unit :=
  tryInsertStr idx (Str.encodeUtf8 ch)

open M in
/-- arraystring.rs:690-703 `insert_str_truncate`. -/
def insertStrTruncate (idx : Nat) (string : Bytes) : M (ArrayString N) Error Unit := do
  let s ← self
  let room ← lift (subUsize (capacity N) s.len)
  let t ← lift (truncateStr string room)
  tryInsertStr idx t

open M in
/-- arraystring.rs:766-771 `clear`. -/
def clear : M (ArrayString N) ε Unit := do
  let s ← self
  setSelf { s with size := 0 }

/-! ## Constructors -/

/-- arraystring.rs:72-79 `try_from_str`. -/
def tryFromStr (string : Bytes) : Res OutOfBounds (ArrayString N) := do
  let ((), s) ← (tryPushStr string).onLocal new
  pure s

/-- arraystring.rs:97-104 `from_str_truncate`. -/
def fromStrTruncate (string : Bytes) : Res ε (ArrayString N) := do
  let ((), s) ← (pushStrTruncate string).onLocal new
  pure s

/-- arraystring.rs:128-130: the loop of `try_from_iterator`.  The final iterator state is returned
too, so that what was consumed can be observed. -/
def tryFromIteratorLoop (it : Iter κ Bytes) (k : κ) (out : ArrayString N) :
    Res OutOfBounds (ArrayString N × κ) :=
  match it k with
  | .done k => .ok (out, k)
  | .panic => .panic
  | .item s k =>
    match tryPushStr s out with
    | (.ok (), out) => tryFromIteratorLoop it k out
    | (.err e, _) => .err e
    | (.panic, _) => .panic
    | (.ub, _) => .ub
    | (.diverge, _) => .diverge
partial_fixpoint

/-- arraystring.rs:121-132 `try_from_iterator`. -/
def tryFromIterator (it : Iter κ Bytes) (k : κ) : Res OutOfBounds (ArrayString N × κ) :=
  tryFromIteratorLoop it k new

/-- An item of type `impl AsRef<str>` whose `as_ref` is called up to twice: the two answers. -/
structure AsRefTwice where
  first : Bytes
  second : Bytes

/-- arraystring.rs:158-163: the loop of `from_iterator_truncate`; `s.as_ref()` is called for
`try_push_str`, and again inside `push_str_truncate`. -/
def fromIteratorTruncateLoop (it : Iter κ AsRefTwice) (k : κ) (out : ArrayString N) :
    Res ε (ArrayString N × κ) :=
  match it k with
  | .done k => .ok (out, k)
  | .panic => .panic
  | .item s k =>
    match tryPushStr s.first out with
    | (.ok (), out) => fromIteratorTruncateLoop it k out
    | (.err _, out) =>
      match (pushStrTruncate s.second : M (ArrayString N) ε Unit) out with
      | (.ok (), out) => .ok (out, k)
      | (.err e, _) => .err e
      | (.panic, _) => .panic
      | (.ub, _) => .ub
      | (.diverge, _) => .diverge
    | (.panic, _) => .panic
    | (.ub, _) => .ub
    | (.diverge, _) => .diverge
partial_fixpoint

/-- arraystring.rs:153-165 `from_iterator_truncate`. -/
def fromIteratorTruncate (it : Iter κ AsRefTwice) (k : κ) : Res ε (ArrayString N × κ) :=
  fromIteratorTruncateLoop it k new

/-- arraystring.rs:188-190: the loop of `try_from_chars`. -/
def tryFromCharsLoop (it : Iter κ Char) (k : κ) (out : ArrayString N) :
    Res OutOfBounds (ArrayString N × κ) :=
  match it k with
  | .done k => .ok (out, k)
  | .panic => .panic
  | .item c k =>
    match tryPush c out with
    | (.ok (), out) => tryFromCharsLoop it k out
    | (.err e, _) => .err e
    | (.panic, _) => .panic
    | (.ub, _) => .ub
    | (.diverge, _) => .diverge
partial_fixpoint

/-- arraystring.rs:183-192 `try_from_chars`. -/
def tryFromChars (it : Iter κ Char) (k : κ) : Res OutOfBounds (ArrayString N × κ) :=
  tryFromCharsLoop it k new

/-- arraystring.rs:215-219: the loop of `from_chars_truncate`. -/
def fromCharsTruncateLoop (it : Iter κ Char) (k : κ) (out : ArrayString N) :
    Res ε (ArrayString N × κ) :=
  match it k with
  | .done k => .ok (out, k)
  | .panic => .panic
  | .item c k =>
    match tryPush c out with
    | (.ok (), out) => fromCharsTruncateLoop it k out
    | (.err _, out) => .ok (out, k)
    | (.panic, _) => .panic
    | (.ub, _) => .ub
    | (.diverge, _) => .diverge
partial_fixpoint

/-- arraystring.rs:210-221 `from_chars_truncate`. -/
def fromCharsTruncate (it : Iter κ Char) (k : κ) : Res ε (ArrayString N × κ) :=
  fromCharsTruncateLoop it k new

/-- arraystring.rs:250-252: the loop of `try_from_utf16` over the decoder state. -/
def tryFromUtf16Loop (k : Option UInt16 × List UInt16) (out : ArrayString N) :
    Res Error (ArrayString N) :=
  match Str.decodeUtf16Next k with
  | .done _ => .ok out
  | .panic => .panic
  | .item none _ => .err (ErrFrom.from_ (DecodeUtf16Error.mk))
  | .item (some c) k =>
    match tryPush c out with
    | (.ok (), out) => tryFromUtf16Loop k out
    | (.err e, _) => .err (ErrFrom.from_ e)
    | (.panic, _) => .panic
    | (.ub, _) => .ub
    | (.diverge, _) => .diverge
partial_fixpoint

/-- arraystring.rs:245-254 `try_from_utf16`. -/
def tryFromUtf16 (slice : List UInt16) : Res Error (ArrayString N) :=
  tryFromUtf16Loop (none, slice) new

/-- arraystring.rs:283-287: the loop of `from_utf16_truncate`. -/
def fromUtf16TruncateLoop (k : Option UInt16 × List UInt16) (out : ArrayString N) :
    Res Utf16 (ArrayString N) :=
  match Str.decodeUtf16Next k with
  | .done _ => .ok out
  | .panic => .panic
  | .item none _ => .err (ErrFrom.from_ (DecodeUtf16Error.mk))
  | .item (some c) k =>
    match tryPush c out with
    | (.ok (), out) => fromUtf16TruncateLoop k out
    | (.err _, out) => .ok out
    | (.panic, _) => .panic
    | (.ub, _) => .ub
    | (.diverge, _) => .diverge
partial_fixpoint

/-- arraystring.rs:278-289 `from_utf16_truncate`. -/
def fromUtf16Truncate (slice : List UInt16) : Res Utf16 (ArrayString N) :=
  fromUtf16TruncateLoop (none, slice) new

/-- arraystring.rs:317-321: the loop of `from_utf16_lossy_truncate`. -/
def fromUtf16LossyTruncateLoop (k : Option UInt16 × List UInt16) (out : ArrayString N) :
    Res ε (ArrayString N) :=
  match Str.decodeUtf16Next k with
  | .done _ => .ok out
  | .panic => .panic
  | .item c k =>
    match tryPush (c.getD Str.replacementCharacter) out with
    | (.ok (), out) => fromUtf16LossyTruncateLoop k out
    | (.err _, out) => .ok out
    | (.panic, _) => .panic
    | (.ub, _) => .ub
    | (.diverge, _) => .diverge
partial_fixpoint

/-- arraystring.rs:312-323 `from_utf16_lossy_truncate`. -/
def fromUtf16LossyTruncate (slice : List UInt16) : Res ε (ArrayString N) :=
  fromUtf16LossyTruncateLoop (none, slice) new

/-! ## Methods built on constructors -/

/-- A caller's `FnMut(char) -> bool` with internal state `φ`; `none` when it panics. -/
abbrev Pred (φ : Type) := φ → Char → Option (Bool × φ)

/-- `Filter::next` over the remaining characters (arraystring.rs:599: `.chars().filter(|c| f(*c))`). -/
def filterNext (f : Pred φ) : φ → List Char → Step (List Char × φ) Char
  | q, [] => .done ([], q)
  | q, c :: cs =>
    match f q c with
    | none => .panic
    | some (true, q) => .item c (cs, q)
    | some (false, q) => filterNext f q cs

/-- The iterator `self.as_str().chars().filter(|c| f(*c))`. -/
def filterIter (f : Pred φ) : Iter (List Char × φ) Char := fun k => filterNext f k.2 k.1

open M in
/-- arraystring.rs:594-600 `retain`; returns the final state of the predicate. -/
def retain (f : Pred φ) (q : φ) : M (ArrayString N) ε φ := do
  let s ← self
  let b ← lift s.asStr
  let (out, k) ← lift (fromCharsTruncate (filterIter f) (Str.chars b, q))
  setSelf out
  pure k.2

/-- drain.rs:15-17 `struct Drain<const N: usize>(ArrayString<N>)`. -/
structure Drain (N : Nat) where
  inner : ArrayString N
deriving DecidableEq, Repr

open M in
/-- arraystring.rs:790-820 `drain`. -/
def drain (r : RangeB) : M (ArrayString N) Error (Drain N) := do
  let s ← self
  let start := rangeStart r
  let stop := rangeEnd r s.len
  try_ (isInsideBoundary start stop)
  try_ (isInsideBoundary stop s.len)
  try_ (s.isCharBoundary start)
  try_ (s.isCharBoundary stop)
  lift (debugAssert (start ≤ stop && stop ≤ s.len))
  let b ← lift s.asStr
  lift (debugAssert (Str.isCharBoundary b start))
  lift (debugAssert (Str.isCharBoundary b stop))
  let slice ← lift (Str.getUnchecked b start stop)
  let drain ← try_ (tryFromStr slice)
  replaceRange (.range start stop) []
  pure ⟨drain⟩

/-- arraystring.rs:745-751 `split_off`. -/
def splitOff (at_ : Nat) : M (ArrayString N) Error (ArrayString N) := do
  let d ← drain (.from_ at_)
  pure d.inner

end ArrayString
end Verif
