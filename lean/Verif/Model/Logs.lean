import Verif.Model.History

/-!
# The `logs` feature

With the feature on, `trace!` and `debug!` are the macros of the `log` crate (arraystring.rs:10-11,
utils.rs:4-5, error.rs:5-6); with it off they expand to nothing (lib.rs:108-118), which is what
`Model/ArrayString.lean` models.  Here every method is written again with its log statements, in an
environment with a state `W` that the logger (and the caller's `as_ref`) may read and change.  The
logger may do anything: panic, never return, log again while it formats the message.

Log statements are evaluated as the `log` crate does: nothing at all happens, not even evaluation of
the arguments, if the level is disabled; otherwise the arguments of the macro are evaluated, and the
logger gets a message that it formats itself.  A `{self}` or `{self:?}` in a message is therefore
formatted inside the logger, by calls of `as_str` that log again.

Simplifications: a message is formatted as a whole; caller's iterators are finite scripts (as in
histories), and the predicate of `retain` has no access to `W`; loops of the code that are not over a
script are given fuel, and running out of it counts as `diverge` (it is proved not to happen).
A build may have debug assertions or not; without them the conditions of `debug_assert!`s are not
evaluated, so the calls in them do not log.
-/

namespace Verif
open Spec ArrayString

/-- `log::Level`, the two that occur. -/
inductive Level where
  | debug
  | trace
deriving DecidableEq, Repr

/-- The `log` crate and the installed logger: `enabled` is `lvl <= STATIC_MAX_LEVEL && lvl <=
max_level()`; `log lvl message` is `logger().log(..)`, which formats the message if it wants to.
`dbgStr` and `dbgUnits` are the standard library's `{:?}` of a `str` and of a `[u16]`;
`debugAssertions` says how the crate was built. -/
structure Env (W : Type) where
  debugAssertions : Bool
  enabled : Level → W → Bool
  log : Level → M W Empty Bytes → M W Empty Unit
  dbgStr : Bytes → Bytes
  dbgUnits : List UInt16 → Bytes

namespace Logged
variable {W ε ε' α β φ : Type} {N : Nat}

/-- A computation that returns no `Err`. -/
def noErr (m : M W Empty α) : M W ε α := M.mapErr (fun e => nomatch e) m

/-- `trace!(..)`/`debug!(..)`: `args` evaluates the arguments and gives the message to be formatted. -/
def record (E : Env W) (lvl : Level) (args : M W Empty (M W Empty Bytes)) : M W ε Unit := fun w =>
  if E.enabled lvl w then noErr (args >>= E.log lvl) w else (.ok (), w)

/-- A log statement whose arguments are plain values. -/
def note (E : Env W) (lvl : Level) (message : Bytes) : M W ε Unit := record E lvl (pure (pure message))

/-- `{}` of a `usize` or `u8`. -/
def dec (n : Nat) : Bytes := lit (toString n)

/-- Run a `&self` computation on the string. -/
def view (f : ArrayString N → M W ε α) : M (ArrayString N × W) ε α := fun p =>
  ((f p.1 p.2).1, (p.1, (f p.1 p.2).2))

/-- Assign to (fields of) the string. -/
def update (f : ArrayString N → ArrayString N) : M (ArrayString N × W) ε Unit := fun p =>
  (.ok (), (f p.1, p.2))

/-- Run a `&mut self` computation on a local variable. -/
def onLocal (m : M (ArrayString N × W) ε α) (s : ArrayString N) : M W ε (α × ArrayString N) := fun w =>
  match m (s, w) with
  | (.ok a, p) => (.ok (a, p.1), p.2)
  | (.err e, p) => (.err e, p.2)
  | (.panic, p) => (.panic, p.2)
  | (.ub, p) => (.ub, p.2)
  | (.diverge, p) => (.diverge, p.2)

/-- `debug_assert!(b)`; its condition is evaluated only in builds with debug assertions. -/
def debugAssertM {σ : Type} (E : Env W) (b : M σ ε Bool) : M σ ε Unit :=
  if E.debugAssertions then do
    let b ← b
    M.lift (if b then .ok () else .panic)
  else pure ()

/-- The text an `impl AsRef<str>` argument answers when asked. -/
abbrev AsRefStr (W : Type) := M W Empty Bytes

/-- A `&str` argument: `as_ref` always answers the same, and does nothing else. -/
def text (b : Bytes) : AsRefStr W := fun w => (.ok b, w)

section
variable (E : Env W)

/-! ## error.rs: the conversions made by `?` -/

/-- error.rs:193-199 `From<OutOfBounds> for Error`, applied by `?`. -/
def tryOutOfBounds {σ : Type} (noteM : M σ Error Unit) (m : M σ OutOfBounds α) : M σ Error α := do
  let r ← M.attempt m
  match r with
  | .ok a => pure a
  | .error _ => do
    noteM
    M.lift (.err .outOfBounds)

/-- error.rs:119-125 `From<Utf8> for Error`, applied by `?`. -/
def tryUtf8 (m : M W Utf8 α) : M W Error α := do
  let r ← M.attempt m
  match r with
  | .ok a => pure a
  | .error _ => do
    note E .trace (lit "From Utf8")
    M.lift (.err .utf8)

/-- error.rs:196. -/
def noteOutOfBounds : M W ε Unit := note E .trace (lit "From OutOfBounds")

/-! ## Reading -/

/-- arraystring.rs:719-724 `len`. -/
def len (s : ArrayString N) : M W ε Nat := do
  note E .trace (lit "Len")
  pure s.len

/-- implementations.rs:57-68 `AsRef<[u8]>::as_ref`. -/
def asRefBytes (s : ArrayString N) : M W ε Bytes := do
  debugAssertM E (do
    let n ← len E s
    pure (n ≤ N))
  let n ← len E s
  M.lift (getUncheckedTo s.array n)

/-- implementations.rs:23-36 `AsRef<str>::as_ref`. -/
def asRefStr (s : ArrayString N) : M W ε Bytes := do
  debugAssertM E (do
    let b ← asRefBytes E s
    pure (Str.validUtf8 b))
  let b ← asRefBytes E s
  M.lift (Str.fromUtf8Unchecked b)

/-- arraystring.rs:336-341 `as_str`. -/
def asStr (s : ArrayString N) : M W ε Bytes := do
  note E .trace (lit "As str")
  asRefStr E s

/-- `{self}` in a message: implementations.rs:223-232. -/
def showDisplay (s : ArrayString N) : M W Empty Bytes := asStr E s

/-- `{self:?}` in a message: implementations.rs:94-106. -/
def showDebug (s : ArrayString N) : M W Empty Bytes := do
  let b ← asStr E s
  pure (lit "ArrayString { array: " ++ E.dbgStr b ++ lit ", size: " ++ dec s.size.toNat ++ lit " }")

/-- `is_empty` through implementations.rs:234-245 `Deref`. -/
def isEmpty (s : ArrayString N) : M W ε Bool := do
  let b ← asRefStr E s
  pure b.isEmpty

/-- utils.rs:13-19 `is_inside_boundary`. -/
def isInsideBoundary (size limit : Nat) : M W OutOfBounds Unit := do
  note E .trace (lit "Out of bounds: ensures " ++ dec size ++ lit " <= " ++ dec limit)
  M.lift (Verif.isInsideBoundary size limit)

/-- utils.rs:21-33 `is_char_boundary`. -/
def isCharBoundary (s : ArrayString N) (idx : Nat) : M W Utf8 Unit := do
  record E .trace (do
    let b ← asStr E s
    pure (pure (lit "Is char boundary: " ++ b ++ lit " at " ++ dec idx)))
  let b ← asStr E s
  M.lift (if Str.isCharBoundary b idx then .ok () else .err {})

/-- utils.rs:35-61 `truncate_str`. -/
def truncateStr (slice : Bytes) (size : Nat) : M W ε Bytes := do
  note E .trace (lit "Truncate str: " ++ slice ++ lit " at " ++ dec size)
  M.lift (Verif.truncateStr slice size)

/-! ## Mutation -/

/-- arraystring.rs:798-802 and 851-855. -/
def rangeEnd (r : RangeB) (s : ArrayString N) : M W ε Nat :=
  match r.stop with
  | .included t => pure (saturatingAdd t 1)
  | .excluded t => pure t
  | .unbounded => len E s

/-- `is_inside_boundary(..)?` in a function returning `Error`. -/
def checkInside (size limit : Nat) : M W Error Unit :=
  tryOutOfBounds (noteOutOfBounds E) (isInsideBoundary E size limit)

/-- arraystring.rs:838-892 `replace_range`. -/
def replaceRange (r : RangeB) (with_ : AsRefStr W) : M (ArrayString N × W) Error Unit := do
  let str ← view fun _ => noErr with_
  let start := rangeStart r
  let stop ← view fun s => rangeEnd E r s
  view fun s => record E .debug (do
    let n ← len E s
    let l ← with_
    let t ← with_
    pure (pure (lit "Replace range (len: " ++ dec n ++ lit ") (" ++ dec start ++ lit ".." ++ dec stop ++
      lit ") with (len: " ++ dec l.length ++ lit ") " ++ t)))
  if start = stop ∧ str.isEmpty then pure ()
  else do
    view fun _ => checkInside E start stop
    view fun s => do
      let n ← len E s
      checkInside E stop n
    view fun _ => checkInside E str.length (capacity N)
    view fun s => tryUtf8 E (isCharBoundary E s start)
    view fun s => tryUtf8 E (isCharBoundary E s stop)
    view fun s => do
      let n ← len E s
      let a ← M.lift (addUsize n str.length)
      let b ← M.lift (addUsize a start)
      let total ← M.lift (subUsize b stop)
      checkInside E total (capacity N)
    -- unsafe block, lines 878-889
    let cutStart ← M.lift (ptrAdd N start)
    let cutEnd ← M.lift (ptrAdd N stop)
    let strEnd ← M.lift (ptrAdd N (cutStart + str.length))
    if cutEnd ≠ strEnd then do
      let n ← view fun s => len E s
      let n ← M.lift (subUsize n stop)
      let mem ← view fun s => M.lift (memCopy s.array cutEnd strEnd n)
      update fun s => { s with array := mem }
    else pure ()
    if ¬ str.isEmpty then do
      let mem ← view fun s => M.lift (memCopyFrom s.array str cutStart str.length)
      update fun s => { s with array := mem }
    else pure ()
    -- line 890
    let n ← view fun s => len E s
    let a ← M.lift (addUsize n str.length)
    let b ← M.lift (addUsize a start)
    let total ← M.lift (subUsize b stop)
    update fun s => { s with size := intoLossy total }

/-- arraystring.rs:389-396 `try_push_str`. -/
def tryPushStr (string : AsRefStr W) : M (ArrayString N × W) OutOfBounds Unit := do
  view fun _ => record E .trace (do
    let b ← string
    pure (pure (lit "Push str: " ++ b)))
  let n ← view fun s => len E s
  M.mapErr (fun _ => {}) (replaceRange E (.range n n) string)

/-- arraystring.rs:416-421 `push_str_truncate`. -/
def pushStrTruncate (string : AsRefStr W) : M (ArrayString N × W) ε Unit := do
  view fun _ => record E .trace (do
    let b ← string
    pure (pure (lit "Push str truncate: " ++ b)))
  let b ← view fun _ => noErr string
  let n ← view fun s => len E s
  let room ← M.lift (subUsize (capacity N) n)
  let t ← view fun _ => truncateStr E b room
  let _ ← M.attempt (tryPushStr E (text t))
  pure ()

/-- arraystring.rs:440-446 `try_push`. -/
def tryPush (ch : Char) : M (ArrayString N × W) OutOfBounds Unit := do
  view fun _ => note E .trace (lit "Push: " ++ Str.encodeUtf8 ch)
  tryPushStr E (text (Str.encodeUtf8 ch))

/-- arraystring.rs:468-474 `truncate`. -/
def truncate (size : Nat) : M (ArrayString N × W) Utf8 Unit := do
  view fun _ => note E .debug (lit "Truncate: " ++ dec size)
  let n ← view fun s => len E s
  view fun s => isCharBoundary E s (min n size)
  update fun s => { s with size := intoLossy (min n size) }

/-- arraystring.rs:489-497 `pop`. -/
def pop : M (ArrayString N × W) ε (Option Char) := do
  view fun _ => note E .debug (lit "Pop")
  let b ← view fun s => asStr E s
  match (Str.chars b).getLast? with
  | none => pure none
  | some ch => do
    let size ← view fun s => M.lift (subU8 s.size (intoLossy (Str.lenUtf8 ch)))
    update fun s => { s with size := size }
    pure (some ch)

/-- arraystring.rs:515-540 `trim`. -/
def trim : M (ArrayString N × W) ε Unit := do
  view fun s => record E .trace (pure (do
    let d ← showDebug E s
    pure (lit "Trim: " ++ d)))
  let n ← view fun s => len E s
  let b ← view fun s => asStr E s
  let start := trimStart n (Str.charIndices b)
  let n ← view fun s => len E s
  let b ← view fun s => asStr E s
  match trimEnd start n (Str.charIndices b).reverse with
  | none => update fun s => { s with size := 0 }
  | some stop => do
    let _ ← M.attempt (replaceRange E (.from_ stop) (text []))
    let _ ← M.attempt (replaceRange E (.to start) (text []))
    pure ()

/-- arraystring.rs:567-569, at most `fuel` rounds. -/
def removeScan (s : ArrayString N) : Nat → Nat → M W Error Nat
  | 0, _ => M.lift .diverge
  | fuel + 1, stop => do
    let b ← asStr E s
    if Str.isCharBoundary b stop then pure stop
    else do
      let stop ← M.lift (addUsize stop 1)
      removeScan s fuel stop

/-- arraystring.rs:559-580 `remove`. -/
def remove (idx : Nat) : M (ArrayString N × W) Error Char := do
  view fun _ => note E .debug (lit "Remove: " ++ dec idx)
  view fun s => do
    let n ← len E s
    checkInside E (saturatingAdd idx 1) n
  view fun s => tryUtf8 E (isCharBoundary E s idx)
  let n ← view fun s => len E s
  let stop ← M.lift (if idx = n then .ok idx else addUsize idx 1)
  let stop ← view fun s => removeScan E s 256 stop
  let b ← view fun s => asStr E s
  match Str.get? b idx stop with
  | none => M.lift (.err .outOfBounds)
  | some sub =>
    match (Str.chars sub).head? with
    | none => M.lift (.err .utf8)
    | some ch => do
      let stop ← M.lift (addUsize idx (Str.lenUtf8 ch))
      replaceRange E (.range idx stop) (text [])
      pure ch

/-- arraystring.rs:656-662 `try_insert_str`. -/
def tryInsertStr (idx : Nat) (string : AsRefStr W) : M (ArrayString N × W) Error Unit := do
  view fun s => record E .trace (do
    let b ← string
    pure (do
      let d ← showDebug E s
      pure (lit "Try insert at " ++ dec idx ++ lit " str: " ++ E.dbgStr b ++ lit " to " ++ d)))
  view fun s => do
    let n ← len E s
    checkInside E idx n
  replaceRange E (.range idx idx) string

/-- arraystring.rs:626-631 `try_insert`. -/
def tryInsert (idx : Nat) (ch : Char) : M (ArrayString N × W) Error Unit :=
  tryInsertStr E idx (text (Str.encodeUtf8 ch))

/-- arraystring.rs:690-703 `insert_str_truncate`. -/
def insertStrTruncate (idx : Nat) (string : AsRefStr W) : M (ArrayString N × W) Error Unit := do
  view fun s => record E .trace (do
    let b ← string
    pure (do
      let d ← showDisplay E s
      pure (lit "Insert str at " ++ dec idx ++ lit ": " ++ b ++ lit " to " ++ d)))
  let b ← view fun _ => noErr string
  let n ← view fun s => len E s
  let room ← M.lift (subUsize (capacity N) n)
  let t ← view fun _ => truncateStr E b room
  tryInsertStr E idx (text t)

/-- arraystring.rs:766-771 `clear`. -/
def clear : M (ArrayString N × W) ε Unit := do
  view fun _ => note E .trace (lit "Clear")
  update fun s => { s with size := 0 }

/-! ## Constructors -/

/-- arraystring.rs:72-79 `try_from_str`. -/
def tryFromStr (string : AsRefStr W) : M W OutOfBounds (ArrayString N) := do
  record E .trace (do
    let b ← string
    pure (pure (lit "Try from str: " ++ b)))
  let ((), s) ← onLocal (tryPushStr E string) new
  pure s

/-- arraystring.rs:97-104 `from_str_truncate`. -/
def fromStrTruncate (string : AsRefStr W) : M W ε (ArrayString N) := do
  record E .trace (do
    let b ← string
    pure (pure (lit "FromStr truncate: " ++ b)))
  let ((), s) ← onLocal (pushStrTruncate E string) new
  pure s

/-- arraystring.rs:128-130. -/
def tryFromIteratorLoop : Script (AsRefStr W) → M (ArrayString N × W) OutOfBounds Unit
  | [] => pure ()
  | none :: _ => M.lift .panic
  | some s :: k => do
    tryPushStr E s
    tryFromIteratorLoop k

/-- arraystring.rs:121-132 `try_from_iterator`. -/
def tryFromIterator (k : Script (AsRefStr W)) : M W OutOfBounds (ArrayString N) := do
  note E .trace (lit "FromIterator")
  let ((), s) ← onLocal (tryFromIteratorLoop E k) new
  pure s

/-- arraystring.rs:158-163.  An item is what its `as_ref` answers the first time it is called, and
what it answers later. -/
def fromIteratorTruncateLoop : Script (AsRefStr W × AsRefStr W) → M (ArrayString N × W) ε Unit
  | [] => pure ()
  | none :: _ => M.lift .panic
  | some s :: k => do
    let b ← view fun _ => noErr s.1
    let r ← M.attempt (tryPushStr E (text b))
    match r with
    | .ok () => fromIteratorTruncateLoop k
    | .error _ => pushStrTruncate E s.2

/-- arraystring.rs:153-165 `from_iterator_truncate`. -/
def fromIteratorTruncate (k : Script (AsRefStr W × AsRefStr W)) : M W ε (ArrayString N) := do
  note E .trace (lit "FromIterator truncate")
  let ((), s) ← onLocal (fromIteratorTruncateLoop E k) new
  pure s

/-- arraystring.rs:188-190. -/
def tryFromCharsLoop : Script Char → M (ArrayString N × W) OutOfBounds Unit
  | [] => pure ()
  | none :: _ => M.lift .panic
  | some c :: k => do
    tryPush E c
    tryFromCharsLoop k

/-- arraystring.rs:183-192 `try_from_chars`. -/
def tryFromChars (k : Script Char) : M W OutOfBounds (ArrayString N) := do
  note E .trace (lit "TryFrom chars")
  let ((), s) ← onLocal (tryFromCharsLoop E k) new
  pure s

/-- arraystring.rs:215-219. -/
def fromCharsTruncateLoop : Script Char → M (ArrayString N × W) ε Unit
  | [] => pure ()
  | none :: _ => M.lift .panic
  | some c :: k => do
    let r ← M.attempt (tryPush E c)
    match r with
    | .ok () => fromCharsTruncateLoop k
    | .error _ => pure ()

/-- arraystring.rs:210-221 `from_chars_truncate`. -/
def fromCharsTruncate (k : Script Char) : M W ε (ArrayString N) := do
  note E .trace (lit "From chars truncate")
  let ((), s) ← onLocal (fromCharsTruncateLoop E k) new
  pure s

/-- arraystring.rs:250-252, at most `fuel` characters. -/
def tryFromUtf16Loop : Nat → Option UInt16 × List UInt16 → M (ArrayString N × W) Error Unit
  | 0, _ => M.lift .diverge
  | fuel + 1, k =>
    match Str.decodeUtf16Next k with
    | .done _ => pure ()
    | .panic => M.lift .panic
    | .item none _ => M.lift (.err (ErrFrom.from_ DecodeUtf16Error.mk))
    | .item (some c) k => do
      tryOutOfBounds (view fun _ => noteOutOfBounds E) (tryPush E c)
      tryFromUtf16Loop fuel k

/-- arraystring.rs:245-254 `try_from_utf16`. -/
def tryFromUtf16 (slice : List UInt16) : M W Error (ArrayString N) := do
  note E .debug (lit "From utf16: " ++ E.dbgUnits slice)
  let ((), s) ← onLocal (tryFromUtf16Loop E (slice.length + 1) (none, slice)) new
  pure s

/-- arraystring.rs:283-287, at most `fuel` characters. -/
def fromUtf16TruncateLoop : Nat → Option UInt16 × List UInt16 → M (ArrayString N × W) Utf16 Unit
  | 0, _ => M.lift .diverge
  | fuel + 1, k =>
    match Str.decodeUtf16Next k with
    | .done _ => pure ()
    | .panic => M.lift .panic
    | .item none _ => M.lift (.err (ErrFrom.from_ DecodeUtf16Error.mk))
    | .item (some c) k => do
      let r ← M.attempt (tryPush E c)
      match r with
      | .ok () => fromUtf16TruncateLoop fuel k
      | .error _ => pure ()

/-- arraystring.rs:278-289 `from_utf16_truncate`. -/
def fromUtf16Truncate (slice : List UInt16) : M W Utf16 (ArrayString N) := do
  note E .debug (lit "From utf16: " ++ E.dbgUnits slice)
  let ((), s) ← onLocal (fromUtf16TruncateLoop E (slice.length + 1) (none, slice)) new
  pure s

/-- arraystring.rs:317-321, at most `fuel` characters. -/
def fromUtf16LossyTruncateLoop : Nat → Option UInt16 × List UInt16 → M (ArrayString N × W) ε Unit
  | 0, _ => M.lift .diverge
  | fuel + 1, k =>
    match Str.decodeUtf16Next k with
    | .done _ => pure ()
    | .panic => M.lift .panic
    | .item c k => do
      let r ← M.attempt (tryPush E (c.getD Str.replacementCharacter))
      match r with
      | .ok () => fromUtf16LossyTruncateLoop fuel k
      | .error _ => pure ()

/-- arraystring.rs:312-323 `from_utf16_lossy_truncate`. -/
def fromUtf16LossyTruncate (slice : List UInt16) : M W ε (ArrayString N) := do
  note E .debug (lit "From utf16 lossy: " ++ E.dbgUnits slice)
  let ((), s) ← onLocal (fromUtf16LossyTruncateLoop E (slice.length + 1) (none, slice)) new
  pure s

/-! ## Methods built on constructors -/

/-- The characters a predicate lets through, as they are asked for. -/
def filterScript (f : Pred φ) : φ → List Char → Script Char
  | _, [] => []
  | q, c :: cs =>
    match f q c with
    | none => [none]
    | some (true, q) => some c :: filterScript f q cs
    | some (false, q) => filterScript f q cs

/-- arraystring.rs:594-600 `retain`. -/
def retain (f : Pred φ) (q : φ) : M (ArrayString N × W) ε Unit := do
  view fun _ => note E .trace (lit "Retain")
  let b ← view fun s => asStr E s
  let out ← view fun _ => fromCharsTruncate E (filterScript f q (Str.chars b))
  update fun _ => out

/-- arraystring.rs:790-820 `drain`. -/
def drain (r : RangeB) : M (ArrayString N × W) Error (Drain N) := do
  let start := rangeStart r
  let stop ← view fun s => rangeEnd E r s
  view fun s => record E .debug (do
    let n ← len E s
    pure (pure (lit "Drain iterator (len: " ++ dec n ++ lit "): " ++ dec start ++ lit ".." ++ dec stop)))
  view fun _ => checkInside E start stop
  view fun s => do
    let n ← len E s
    checkInside E stop n
  view fun s => tryUtf8 E (isCharBoundary E s start)
  view fun s => tryUtf8 E (isCharBoundary E s stop)
  view fun s => debugAssertM E (if start ≤ stop then do
      let n ← len E s
      pure (stop ≤ n)
    else pure false)
  view fun s => debugAssertM E (do
    let b ← asStr E s
    pure (Str.isCharBoundary b start))
  view fun s => debugAssertM E (do
    let b ← asStr E s
    pure (Str.isCharBoundary b stop))
  let slice ← view fun s => do
    let b ← asStr E s
    M.lift (Str.getUnchecked b start stop)
  let drain ← view fun _ => tryOutOfBounds (noteOutOfBounds E) (tryFromStr E (text slice))
  replaceRange E (.range start stop) (text [])
  pure ⟨drain⟩

/-- arraystring.rs:745-751 `split_off`. -/
def splitOff (at_ : Nat) : M (ArrayString N × W) Error (ArrayString N) := do
  view fun _ => note E .debug (lit "Split off")
  let d ← drain E (.from_ at_)
  pure d.inner

/-! ## implementations.rs and drain.rs -/

/-- implementations.rs:81-92 `FromStr::from_str`. -/
def fromStr (s : Bytes) : M W OutOfBounds (ArrayString N) := tryFromStr E (text s)

/-- implementations.rs:70-79 `From<&str>::from`. -/
def from_ (s : Bytes) : M W ε (ArrayString N) := fromStrTruncate E (text s)

/-- arraystring.rs:354-359 `as_mut_str`, implementations.rs:38-55 `AsMut<str>::as_mut`; the edit
happens after both. -/
def asMutStr (edit : Bytes → Bytes) : M (ArrayString N × W) ε Unit := do
  view fun s => record E .trace (pure (do
    let d ← showDisplay E s
    pure (lit "As mut str: " ++ d)))
  let n ← view fun s => len E s
  debugAssertM E (pure (n ≤ N))
  let b ← view fun s => M.lift (getUncheckedTo s.array n)
  debugAssertM E (pure (Str.validUtf8 b))
  let b ← M.lift (Str.fromUtf8Unchecked b)
  let b' := edit b
  M.lift (if b'.length = b.length ∧ Str.validUtf8 b' then .ok () else .ub)
  update fun s => { s with array := b' ++ s.array.drop n }

/-- implementations.rs:308-374 the six `IndexMut` impls. -/
def indexMut (i : IdxU8) (edit : Bytes → Bytes) : M (ArrayString N × W) ε Unit := do
  view fun s => record E .trace (pure (do
    let d ← showDisplay E s
    pure (lit "As mut str: " ++ d)))
  let n ← view fun s => len E s
  debugAssertM E (pure (n ≤ N))
  let b ← view fun s => M.lift (getUncheckedTo s.array n)
  debugAssertM E (pure (Str.validUtf8 b))
  let b ← M.lift (Str.fromUtf8Unchecked b)
  match i.toUsize.resolve b.length with
  | none => M.lift .panic
  | some (x, y) => do
    let t ← M.lift (Str.index b x y)
    let t' := edit t
    M.lift (if t'.length = t.length ∧ Str.validUtf8 t' then .ok () else .ub)
    update fun s => { s with array := s.array.take x ++ t' ++ s.array.drop y }

/-- implementations.rs:376-452 the six `Index` impls. -/
def index (s : ArrayString N) (i : IdxU8) : M W ε Bytes := do
  let b ← asStr E s
  M.lift (match i.toUsize.resolve b.length with
    | none => .panic
    | some (x, y) => Str.index b x y)

/-- implementations.rs:108-128 `PartialEq<str>`, `PartialEq<&str>`. -/
def eqStr (s : ArrayString N) (other : Bytes) : M W ε Bool := do
  let b ← asStr E s
  pure (Str.eq b other)

/-- implementations.rs:152-161 `Hash`. -/
def hash {η : Type} (H : Hasher η) (s : ArrayString N) (h : η) : M W ε η := do
  let b ← asStr E s
  pure (Str.hash H b h)

/-- implementations.rs:223-232 `Display`, into a collecting sink with default options. -/
def display (s : ArrayString N) : M W FmtError Bytes := do
  let b ← asStr E s
  M.lift (do
    let ((), out) ← (Fmt.write collect [.arg {} (fun o => Fmt.pad collect o b)]).onLocal []
    pure out)

/-- implementations.rs:212-221 `fmt::Write::write_str`. -/
def writeStr (slice : Bytes) : M (ArrayString N × W) FmtError Unit :=
  M.mapErr (fun _ => {}) (tryPushStr E (text slice))

/-- `write!(s, ..)`. -/
def writeFmt (ps : List (Fmt.Piece (ArrayString N × W))) : M (ArrayString N × W) FmtError Unit :=
  Fmt.write ⟨writeStr E⟩ ps

/-- implementations.rs:278-296 `Extend<char>`, `Extend<&char>`. -/
def extendChars (k : Script Char) : M (ArrayString N × W) ε Unit := do
  let (t : ArrayString N) ← view fun _ => fromCharsTruncate E k
  pushStrTruncate E (asRefStr E t)

/-- implementations.rs:298-306 `Extend<&str>`. -/
def extendStrs (k : Script (AsRefStr W × AsRefStr W)) : M (ArrayString N × W) ε Unit := do
  let (t : ArrayString N) ← view fun _ => fromIteratorTruncate E k
  pushStrTruncate E (asRefStr E t)

/-- drain.rs:105-108 `next`, 115-118 `next_back`, as listed; the place is the inner string. -/
def drainEnds : List End → M (ArrayString N × W) ε (List (Option Char))
  | [] => pure []
  | .front :: es => do
    let r ← M.attempt (remove E 0)
    let os ← drainEnds es
    pure ((match r with | .ok c => some c | .error _ => none) :: os)
  | .back :: es => do
    let o ← pop E
    let os ← drainEnds es
    pure (o :: os)

/-! ## Histories -/

/-- Observe the outcome of a method. -/
def call [Kind ε] (m : M (ArrayString N × W) ε α) (out : α → Out) : M (ArrayString N × W) Failure Out := do
  let a ← M.mapErr Kind.kind m
  pure (out a)

/-- Observe the outcome of a constructor, and keep the string it made. -/
def construct [Kind ε] (m : M W ε (ArrayString N)) : M (ArrayString N × W) Failure Out := do
  let s ← view fun _ => M.mapErr Kind.kind m
  update fun _ => s
  pure .unit

/-- Observe the outcome of a `&self` method. -/
def query [Kind ε] (f : ArrayString N → M W ε α) (out : α → Out) : M (ArrayString N × W) Failure Out := do
  let a ← view fun s => M.mapErr Kind.kind (f s)
  pure (out a)

/-- An item that always answers the same. -/
def same (b : Bytes) : AsRefStr W × AsRefStr W := (text b, text b)

/-- Perform one call. -/
def exec (op : Op) : M (ArrayString N × W) Failure Out :=
  match op with
  | .new => construct (ε := Error) (pure ArrayString.new)
  | .default => construct (ε := Error) (pure ArrayString.default)
  | .tryFromStr w => construct (tryFromStr E (text (utf8 w)))
  | .parse w => construct (fromStr E (utf8 w))
  | .fromStrTruncate w => construct (ε := Error) (fromStrTruncate E (text (utf8 w)))
  | .from_ w => construct (ε := Error) (from_ E (utf8 w))
  | .tryFromIterator ws => construct (tryFromIterator E (ws.map (Option.map fun w => text (utf8 w))))
  | .fromIteratorTruncate ws => construct (ε := Error) (fromIteratorTruncate E
      (ws.map (Option.map fun p => (text (utf8 p.1), text (utf8 p.2)))))
  | .collectStrs ws => construct (ε := Error) (fromIteratorTruncate E (ws.map (Option.map fun w => same (utf8 w))))
  | .tryFromChars w => construct (tryFromChars E w)
  | .fromCharsTruncate w => construct (ε := Error) (fromCharsTruncate E w)
  | .collectChars w => construct (ε := Error) (fromCharsTruncate E w)
  | .tryFromUtf16 l => construct (tryFromUtf16 E l)
  | .fromUtf16Truncate l => construct (fromUtf16Truncate E l)
  | .fromUtf16LossyTruncate l => construct (ε := Error) (fromUtf16LossyTruncate E l)
  | .tryPushStr w => call (tryPushStr E (text (utf8 w))) fun _ => .unit
  | .pushStrTruncate w => call (ε := Error) (pushStrTruncate E (text (utf8 w))) fun _ => .unit
  | .tryPush c => call (tryPush E c) fun _ => .unit
  | .truncate n => call (truncate E n) fun _ => .unit
  | .pop => call (ε := Error) (pop E) .optChar
  | .trim => call (ε := Error) (trim E) fun _ => .unit
  | .remove i => call (remove E i) .char
  | .retain f => call (ε := Error) (retain E (logged f) []) fun _ => .unit
  | .tryInsert i c => call (tryInsert E i c) fun _ => .unit
  | .tryInsertStr i w => call (tryInsertStr E i (text (utf8 w))) fun _ => .unit
  | .insertStrTruncate i w => call (insertStrTruncate E i (text (utf8 w))) fun _ => .unit
  | .clear => call (ε := Error) (clear E) fun _ => .unit
  | .drain r es => call (ε := Error) (do
      let d ← drain E r
      let (os, t) ← view fun _ => onLocal (drainEnds E es) d.inner
      let b ← view fun _ => asStr E t
      pure (os, b)) fun p => .drained p.1 p.2
  | .splitOff i => call (ε := Error) (do
      let t ← splitOff E i
      view fun _ => asStr E t) .str
  | .replaceRange r w => call (replaceRange E r (text (utf8 w))) fun _ => .unit
  | .extendChars w => call (ε := Error) (extendChars E w) fun _ => .unit
  | .extendStrs ws => call (ε := Error) (extendStrs E (ws.map (Option.map fun w => same (utf8 w)))) fun _ => .unit
  | .add w => construct' (pushStrTruncate E (text (utf8 w)))
  | .writeStr w => call (writeStr E (utf8 w)) fun _ => .unit
  | .writeFmt ws => call (writeFmt E (ws.map fun w => .lit (utf8 w))) fun _ => .unit
  | .index i => query (ε := Error) (fun s => index E s i) .str
  | .indexMut i e => call (ε := Error) (indexMut E i e.onBytes) fun _ => .unit
  | .asMutStr e => call (ε := Error) (asMutStr E e.onBytes) fun _ => .unit
  | .asStr => query (ε := Error) (fun s => asStr E s) .str
  | .asBytes => query (ε := Error) (fun s => asRefBytes E s) .str
  | .display => query (fun s => display E s) .str
  | .len => query (ε := Error) (fun s => len E s) .nat
  | .isEmpty => query (ε := Error) (fun s => isEmpty E s) .bool
  | .capacity => query (ε := Error) (fun _ => pure (capacity N)) .nat
  | .eqStr w => query (ε := Error) (fun s => eqStr E s (utf8 w)) .bool
  | .hash => query (ε := Error) (fun s => hash E traceHasher s []) .str
where
  /-- implementations.rs:198-210 `Add<&str>`: the operand is moved, so an abandoned addition leaves
  the caller's variable as it was (it can only be a copy). -/
  construct' (m : M (ArrayString N × W) Error Unit) : M (ArrayString N × W) Failure Out := do
    let p ← view fun s => M.mapErr Kind.kind (onLocal m s)
    update fun _ => p.2
    pure .unit

/-- Perform a history of calls on a string. -/
def runOps : List Op → ArrayString N × W → List (Res Failure Out) × ArrayString N × W
  | [], p => ([], p)
  | op :: ops, p =>
    let (r, p) := exec E op p
    let (rs, p) := runOps ops p
    (r :: rs, p)

end
end Logged
end Verif
