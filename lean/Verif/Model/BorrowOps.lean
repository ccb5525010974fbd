import Verif.Model.BorrowCalls

/-!
# Every call of a history, with tags on every reference

`exec` performs the calls of `Spec.Op` like the plain `Verif.exec`, through one `&mut ArrayString<N>` of
the caller, with a `&str` of the caller as the argument.  A string that a constructor makes is stored
through the reference.

Simplifications: the items of an iterator of texts are all read at the same place, through the same
reference; the `u16`s that the UTF-16 constructors read, the formatter and the hasher have no tags; an
argument passed by value whose `as_ref` is called is a `&str`; the methods of `&mut str` are one read
and one write of the whole text.
-/

namespace Verif.Borrow
open Spec

variable {R : Rules} {N : Nat} {ε α : Type}

/-! ## Constructors -/

/-- arraystring.rs:97-104 `from_str_truncate`. -/
def fromStrTruncate (arg : Tag) (string : Bytes) : M (World R N) ε (ArrayString N) :=
  passShared arg (N + 1) (N + 1 + string.length) fun t => do
    let r ← withNew (N + 1) (N + 1 + string.length) fun s => callMut s fun s => pushStrTruncate s t string
    pure r.2

/-- `for item in iterator { .. }` with the caller's iterator following a script; the body of the loop
returns whether to go on. -/
def feed {σ : Type} (body : α → M σ ε Bool) : Script α → M σ ε Unit
  | [] => pure ()
  | none :: _ => M.lift .panic
  | some a :: l => do
    if ← body a then feed body l else pure ()

/-- The largest size of an item. -/
def widest (size : α → Nat) : Script α → Nat
  | [] => 0
  | none :: l => widest size l
  | some a :: l => max (size a) (widest size l)

/-- arraystring.rs:121-132 `try_from_iterator`. -/
def tryFromIterator (arg : Tag) (l : Script Bytes) : M (World R N) OutOfBounds (ArrayString N) := do
  let r ← withNew (N + 1) (N + 1 + widest List.length l) fun out =>
    feed (fun s => do
      callMut out fun out => tryPushStr out arg s
      pure true) l
  pure r.2

/-- arraystring.rs:153-165 `from_iterator_truncate`. -/
def fromIteratorTruncate (arg : Tag) (l : Script ArrayString.AsRefTwice) : M (World R N) ε (ArrayString N) := do
  let r ← withNew (N + 1) (N + 1 + widest (fun s => max s.first.length s.second.length) l) fun out =>
    feed (fun s => do
      let u ← retagTwoPhase out
      let a ← through arg (N + 1) (N + 1 + s.first.length) (N + 1) (N + 1 + s.first.length)
      let r ← M.attempt (passUnique u 0 (N + 1) fun out => tryPushStr out a s.first)
      match r with
      | .ok () => pure true
      | .error _ => do
        callMut out fun out => pushStrTruncate out arg s.second
        pure false) l
  pure r.2

/-- arraystring.rs:183-192 `try_from_chars`. -/
def tryFromChars (l : Script Char) : M (World R N) OutOfBounds (ArrayString N) := do
  let r ← withNew 0 0 fun out =>
    feed (fun c => do
      callMut out fun out => tryPush out c
      pure true) l
  pure r.2

/-- `if out.try_push(c).is_err() { break; }` -/
def pushOrBreak (out : Tag) (c : Char) : M (World R N) ε Bool := do
  let r ← M.attempt (callMut out fun out => tryPush out c)
  match r with
  | .ok () => pure true
  | .error _ => pure false

/-- arraystring.rs:210-221 `from_chars_truncate`. -/
def fromCharsTruncate (l : Script Char) : M (World R N) ε (ArrayString N) := do
  let r ← withNew 0 0 fun out => feed (pushOrBreak out) l
  pure r.2

theorem decode_less {k k' : Option UInt16 × List UInt16} {c : Option Char}
    (h : Str.decodeUtf16Next k = .item c k') :
    k'.2.length + (if k'.1.isSome then 1 else 0) < k.2.length + (if k.1.isSome then 1 else 0) := by
  have key : ∀ (u : UInt16) (l : List UInt16), Str.decodeUtf16Next (some u, l) = .item c k' →
      k'.2.length + (if k'.1.isSome then 1 else 0) < l.length + 1 := by
    intro u l h
    unfold Str.decodeUtf16Next at h
    simp only at h
    split at h
    · cases h; simp
    · split at h
      · cases h; simp
      · split at h
        · cases h; simp
        · split at h <;> cases h <;> simp <;> omega
  obtain ⟨buf, l⟩ := k
  cases buf with
  | some u => exact key u l h
  | none =>
    cases l with
    | nil => cases h
    | cons u l => exact key u l h

/-- Everything that the iterator of `decode_utf16` gives. -/
def decoded (k : Option UInt16 × List UInt16) : Script (Option Char) :=
  match _h : Str.decodeUtf16Next k with
  | .item c k => some c :: decoded k
  | .done _ => []
  | .panic => [none]
termination_by k.2.length + (if k.1.isSome then 1 else 0)
decreasing_by exact decode_less _h

/-- arraystring.rs:245-254 `try_from_utf16`. -/
def tryFromUtf16 (slice : List UInt16) : M (World R N) Error (ArrayString N) := do
  let r ← withNew 0 0 fun out =>
    feed (fun c =>
      match c with
      | none => M.lift (.err (ErrFrom.from_ DecodeUtf16Error.mk))
      | some c => do
        M.tryM (callMut out fun out => tryPush out c)
        pure true) (decoded (none, slice))
  pure r.2

/-- arraystring.rs:278-289 `from_utf16_truncate`. -/
def fromUtf16Truncate (slice : List UInt16) : M (World R N) Utf16 (ArrayString N) := do
  let r ← withNew 0 0 fun out =>
    feed (fun c =>
      match c with
      | none => M.lift (.err (ErrFrom.from_ DecodeUtf16Error.mk))
      | some c => pushOrBreak out c) (decoded (none, slice))
  pure r.2

/-- arraystring.rs:312-323 `from_utf16_lossy_truncate`. -/
def fromUtf16LossyTruncate (slice : List UInt16) : M (World R N) ε (ArrayString N) := do
  let r ← withNew 0 0 fun out =>
    feed (fun c => pushOrBreak out (c.getD Str.replacementCharacter)) (decoded (none, slice))
  pure r.2

/-! ## The traits -/

/-- `self.push_str_truncate(string)` (implementations.rs:284 and 304) with a string that `make` makes while
the borrow of `self` waits; its text is a new variable. -/
def extend (self : Tag) (make : M (World R N) ε (ArrayString N)) : M (World R N) ε Unit := do
  let u ← retagTwoPhase self
  let t ← make
  let b ← M.lift t.asRefStr
  withBuf b.length fun a => passUnique u 0 (N + 1) fun self => pushStrTruncate self a b

/-- implementations.rs:205-209 `Add::add`, called with the string `s`. -/
def addTo (s : ArrayString N) (arg : Tag) (other : Bytes) : M (World R N) ε (ArrayString N) :=
  passShared arg (N + 1) (N + 1 + other.length) fun t => do
    let r ← withLocal s (N + 1) (N + 1 + other.length) fun s =>
      callMut s fun s => pushStrTruncate s t other
    pure r.2

/-- Call `add`; the operand is a copy of the caller's string. -/
def add (caller arg : Tag) (other : Bytes) : M (World R N) ε (ArrayString N) := do
  readAt caller 0 (N + 1)
  let s ← get
  addTo s arg other

/-- `fmt::write` with literals only, to the `&mut dyn fmt::Write` with the given tag. -/
def writeAll (self arg : Tag) : List Bytes → M (World R N) FmtError Unit
  | [] => pure ()
  | s :: l => do
    if s.isEmpty then pure () else callMut self fun self => writeStr self arg s
    writeAll self arg l

/-- The methods that take the text by `as_str` and read it: `Display`, `Hash`, `PartialEq<str>`
(implementations.rs:108-117, 152-161 and 223-232). -/
def reading (caller : Tag) : M (World R N) ε Unit := callShared caller fun self => do
  let (a, n) ← asStr self
  passShared a 0 n fun a => readAt a 0 n

/-- implementations.rs:376-452 the `Index` impls: the slice they return, where it is, and its contents. -/
def indexRef (caller : Tag) (i : IdxU8) : M (World R N) ε (Tag × Nat × Nat × Bytes) := do
  let (a, x, y, t) ← callShared caller fun self => do
    let (a, n) ← asStr self
    let s ← get
    let b ← M.lift s.asStr
    let (a, x, y, t) ← passShared a 0 n fun a =>
      match i.toUsize.resolve b.length with
      | none => M.lift .panic
      | some (x, y) => do
        readBoundary a 0 n x
        readBoundary a 0 n y
        let t ← M.lift (Str.index b x y)
        let a ← retagShared a x y false
        pure (a, x, y, t)
    let a ← retagShared a x y false
    pure (a, x, y, t)
  let a ← retagShared a x y false
  pure (a, x, y, t)

/-- An index and a look at the slice. -/
def index (caller : Tag) (i : IdxU8) : M (World R N) ε Bytes := do
  let (a, x, y, t) ← indexRef caller i
  readAt a x y
  pure t

/-- What a method of the plain model does to the string. -/
def plain (m : M (ArrayString N) ε α) : M (World R N) ε α := fun w =>
  let (r, s) := m w.str
  (r, { w with str := s })

/-- arraystring.rs:354-359 `as_mut_str`, with its `&mut self` tagged `self`. -/
def asMutStrOn (self : Tag) : M (World R N) ε (Tag × Nat) := do
  let t ← retagTwoPhase self
  passRef t asMutOn

/-- Call `as_mut_str`. -/
def asMutStr (caller : Tag) : M (World R N) ε (Tag × Nat) := do
  let t ← retagTwoPhase caller
  passRef t asMutStrOn

/-- An edit of the text. -/
def editText (caller : Tag) (edit : Bytes → Bytes) : M (World R N) ε Unit := do
  let (u, n) ← asMutStr caller
  readAt u 0 n
  writeAt u 0 n
  plain (ArrayString.asMutStr edit)

/-- implementations.rs:308-374 the `IndexMut` impls, with the `&mut self` tagged `self`: the slice they
return, and where it is.  `str::index_mut` looks at the ends, and makes the slice from a raw pointer. -/
def indexMutOn (self : Tag) (i : IdxU8) : M (World R N) ε (Tag × Nat × Nat) := do
  let (u, n) ← asMutStr self
  let s ← get
  let b ← M.lift s.asStr
  match i.toUsize.resolve n with
  | none => M.lift .panic
  | some (x, y) => do
    readBoundary u 0 n x
    readBoundary u 0 n y
    let _ ← M.lift (Str.index b x y)
    let v ← throughRaw u 0 n x y
    pure (v, x, y)

/-- An edit of a slice. -/
def editSlice (caller : Tag) (i : IdxU8) (edit : Bytes → Bytes) : M (World R N) ε Unit := do
  let (v, x, y) ← callMut caller fun self => indexMutOn self i
  let v ← retagUnique v x y false
  readAt v x y
  writeAt v x y
  plain (ArrayString.indexMut i edit)

/-- drain.rs:105-108 `next` and 115-118 `next_back`, following a list of ends. -/
def drainEnds (d : Tag) : List End → M (World R N) ε (List (Option Char))
  | [] => pure []
  | .front :: es => do
    let r ← M.attempt (callMut d fun d => callMut d fun s => remove s 0)
    let os ← drainEnds d es
    match r with
    | .ok c => pure (some c :: os)
    | .error _ => pure (none :: os)
  | .back :: es => do
    let o ← callMut d fun d => callMut d fun s => pop s
    let os ← drainEnds d es
    pure (o :: os)

/-! ## Calls -/

/-- Observe the outcome of a method. -/
def call [Kind ε] (m : M (World R N) ε α) (out : α → Out) : M (World R N) Failure Out := do
  let a ← M.mapErr Kind.kind m
  pure (out a)

/-- Call a method with `&mut self`. -/
def method [Kind ε] (caller : Tag) (m : Tag → M (World R N) ε α) (out : α → Out) : M (World R N) Failure Out :=
  call (callMut caller m) out

/-- `*caller = make` -/
def construct [Kind ε] (caller : Tag) (make : M (World R N) ε (ArrayString N)) : M (World R N) Failure Out := do
  let s ← M.mapErr Kind.kind make
  writeAt caller 0 (N + 1)
  put s
  pure .unit

/-- Call a method with `&self`, which uses tags as `m` does, and returns what the plain method `f` returns. -/
def query [Kind ε] (m : M (World R N) ε Unit) (f : ArrayString N → Res ε α) (out : α → Out) :
    M (World R N) Failure Out :=
  call (do
    m
    let s ← get
    M.lift (f s)) out

/-- Perform one call. -/
def exec (caller arg : Tag) (op : Op) : M (World R N) Failure Out :=
  match op with
  | .new | .default => construct (ε := Error) caller do
      let r ← withNew 0 0 fun _ => pure ()
      pure r.2
  | .tryFromStr w | .parse w =>
    construct caller (tryFromStr arg (N + 1) (N + 1 + (utf8 w).length) (utf8 w))
  | .fromStrTruncate w | .from_ w => construct (ε := Error) caller (fromStrTruncate arg (utf8 w))
  | .tryFromIterator ws => construct caller (tryFromIterator arg (ws.map (Option.map utf8)))
  | .fromIteratorTruncate ws => construct (ε := Error) caller
      (fromIteratorTruncate arg (ws.map (Option.map fun p => ⟨utf8 p.1, utf8 p.2⟩)))
  | .collectStrs ws => construct (ε := Error) caller
      (fromIteratorTruncate arg (ws.map (Option.map fun w => ⟨utf8 w, utf8 w⟩)))
  | .tryFromChars w => construct caller (tryFromChars w)
  | .fromCharsTruncate w | .collectChars w => construct (ε := Error) caller (fromCharsTruncate w)
  | .tryFromUtf16 l => construct caller (tryFromUtf16 l)
  | .fromUtf16Truncate l => construct caller (fromUtf16Truncate l)
  | .fromUtf16LossyTruncate l => construct (ε := Error) caller (fromUtf16LossyTruncate l)
  | .tryPushStr w => method caller (fun self => tryPushStr self arg (utf8 w)) fun _ => .unit
  | .pushStrTruncate w =>
    method (ε := Error) caller (fun self => pushStrTruncate self arg (utf8 w)) fun _ => .unit
  | .tryPush c => method caller (fun self => tryPush self c) fun _ => .unit
  | .truncate n => method caller (fun self => truncate self n) fun _ => .unit
  | .pop => method (ε := Error) caller pop .optChar
  | .trim => method (ε := Error) caller trim fun _ => .unit
  | .remove i => method caller (fun self => remove self i) .char
  | .retain f => method (ε := Error) caller (fun self => retain self (logged f) []) fun _ => .unit
  | .tryInsert i c => method caller (fun self => tryInsert self i c) fun _ => .unit
  | .tryInsertStr i w => method caller (fun self => tryInsertStr self arg i (utf8 w)) fun _ => .unit
  | .insertStrTruncate i w => method caller (fun self => insertStrTruncate self arg i (utf8 w)) fun _ => .unit
  | .clear => method (ε := Error) caller clear fun _ => .unit
  | .drain r es => call (do
      let d ← callMut caller fun self => drain self r
      let (os, s) ← withLocal d.inner 0 0 fun d => do
        let os ← drainEnds d es
        let _ ← look d
        pure os
      let b ← M.lift s.asStr
      pure (os, b)) fun p => .drained p.1 p.2
  | .splitOff i => call (do
      let t ← callMut caller fun self => splitOff self i
      let _ ← withLocal t 0 0 look
      M.lift t.asStr) .str
  | .replaceRange r w => method caller (fun self => replaceRangeOn self arg r (utf8 w)) fun _ => .unit
  | .extendChars w => method (ε := Error) caller (fun self => extend self (fromCharsTruncate w)) fun _ => .unit
  | .extendStrs ws => method (ε := Error) caller (fun self => extend self
      (fromIteratorTruncate arg (ws.map (Option.map fun w => ⟨utf8 w, utf8 w⟩)))) fun _ => .unit
  | .add w => construct (ε := Error) caller (add caller arg (utf8 w))
  | .writeStr w => method caller (fun self => writeStr self arg (utf8 w)) fun _ => .unit
  | .writeFmt ws => method caller (fun self => callMut self fun self => writeAll self arg (ws.map utf8))
      fun _ => .unit
  | .index i => call (ε := Error) (index caller i) .str
  | .indexMut i e => call (ε := Error) (editSlice caller i e.onBytes) fun _ => .unit
  | .asMutStr e => call (ε := Error) (editText caller e.onBytes) fun _ => .unit
  | .asStr => query (ε := Error) (discard (look caller)) (fun s => s.asStr) .str
  | .asBytes => query (ε := Error) (do
      let (a, n) ← asRefBytes caller
      readAt a 0 n) (fun s => s.asRefBytes) .str
  | .display => query (ε := FmtError) (reading caller) (fun s => (do
      let ((), out) ← (s.display collect {}).onLocal []
      pure out)) .str
  | .len => query (ε := Error) (discard (len caller)) (fun s => .ok s.len) .nat
  | .isEmpty => query (ε := Error) (discard (asRefStr caller)) (fun s => s.isEmpty) .bool
  | .capacity => query (ε := Error) (pure ()) (fun _ => .ok (ArrayString.capacity N)) .nat
  | .eqStr w => query (ε := Error)
      (passShared arg (N + 1) (N + 1 + (utf8 w).length) fun other => do
        reading caller
        readAt other (N + 1) (N + 1 + (utf8 w).length)) (fun s => s.eqStr (utf8 w)) .bool
  | .hash => query (ε := Error) (reading caller) (fun s => s.hash traceHasher []) .str

/-- The texts that a call reads through the caller's `&str`. -/
def texts : Op → List (List Char)
  | .tryFromStr w | .parse w | .fromStrTruncate w | .from_ w | .tryPushStr w | .pushStrTruncate w
  | .tryInsertStr _ w | .insertStrTruncate _ w | .replaceRange _ w | .add w | .writeStr w | .eqStr w => [w]
  | .tryFromIterator ws | .collectStrs ws | .extendStrs ws => ws.filterMap id
  | .fromIteratorTruncate ws => (ws.filterMap id).flatMap fun p => [p.1, p.2]
  | .writeFmt ws => ws
  | _ => []

/-- Perform the calls one after the other, all through the same references. -/
def runOps (caller arg : Tag) : List Op → World R N → List (Res Failure Out) × World R N
  | [], w => ([], w)
  | op :: ops, w =>
    let (r, w) := exec caller arg op w
    let (rs, w) := runOps caller arg ops w
    (r :: rs, w)

end Verif.Borrow
