import Verif.Model.Borrow

/-!
# The `&mut self` methods with tags on every reference

Each definition follows the plain one of `Model/ArrayString.lean` and adds the references that the code
makes on the way.  `self` is the tag of the method's own `&mut self`, `arg` that of its `&str` argument,
whose bytes are at `N + 1 ..`.

Simplifications: where the code looks at the characters of a text one by one, the model reads the
text as a whole (`trim`, `pop`); the `&mut str` that `encode_utf8` returns is passed on as a `&str`.
-/

namespace Verif.Borrow

variable {R : Rules} {N : Nat} {ε α φ : Type}

/-! ## Calls and local variables -/

/-- The `&mut *self` of `self.method(..)`. -/
def retagTwoPhase (self : Tag) : M (World R N) ε Tag := do
  let t ← fresh
  touch 0 (N + 1) (R.twoPhase self t)
  pure t

/-- `self.method(..)`, where the arguments do not use `self`. -/
def callMut (self : Tag) (body : Tag → M (World R N) ε α) : M (World R N) ε α := do
  let t ← retagTwoPhase self
  passUnique t 0 (N + 1) body

/-- `let mut buf = [0; size];` with the given tag, used as the memory of the text argument in `body`. -/
def withBuf (size : Nat) (body : Tag → M (World R N) ε α) : M (World R N) ε α := fun w =>
  let v : World R N := {
    str := w.str
    mem := fun l => if l ≤ N then w.mem l else if l < N + 1 + size then R.alloc w.next else R.empty
    next := w.next + 1 }
  let (r, v) := body w.next v
  (r, { str := v.str
        mem := fun l => if l ≤ N then v.mem l else w.mem l
        next := max w.next v.next })

/-- `let mut s = init;` with the given tag.  In `body` that is the string, and the bytes `lo .. hi` of
the old string are the text argument.  The last value of the variable is returned. -/
def withLocal (init : ArrayString N) (lo hi : Nat) (body : Tag → M (World R N) ε α) :
    M (World R N) ε (α × ArrayString N) := fun w =>
  let v : World R N := {
    str := init
    mem := fun l => if l ≤ N then R.alloc w.next
      else if l < N + 1 + (hi - lo) then w.mem (lo + (l - (N + 1))) else R.empty
    next := w.next + 1 }
  let (r, v) := body w.next v
  (r >>= fun a => .ok (a, v.str),
    { str := w.str
      mem := fun l => if lo ≤ l ∧ l < hi then v.mem (N + 1 + (l - lo)) else w.mem l
      next := max w.next v.next })

/-- `let mut s = Self::new();` -/
def withNew (lo hi : Nat) (body : Tag → M (World R N) ε α) : M (World R N) ε (α × ArrayString N) :=
  withLocal .new lo hi body

/-- `self.size = size` -/
def setSize (self : Tag) (size : UInt8) : M (World R N) ε Unit := do
  writeAt self N (N + 1)
  let s ← get
  put { s with size := size }

/-- A string literal `""`: there are no bytes that the tag could be used on. -/
def emptyLit : Tag := 0

/-! ## The methods -/

/-- arraystring.rs:389-396 `try_push_str`. -/
def tryPushStr (self arg : Tag) (string : Bytes) : M (World R N) OutOfBounds Unit :=
  passShared arg (N + 1) (N + 1 + string.length) fun text => do
    let n ← len self
    M.mapErr (fun _ => {}) (callMut self fun self => replaceRangeOn self text (.range n n) string)

/-- `slice.get_unchecked(..size)` -/
def cut (t : Tag) (slice : Bytes) (size : Nat) : M (World R N) ε (Tag × Bytes) := do
  let b ← M.lift (Str.getUnchecked slice 0 size)
  let t ← through t (N + 1) (N + 1 + slice.length) (N + 1) (N + 1 + size)
  pure (t, b)

/-- utils.rs:35-61 `truncate_str`: the reference it returns, and the text. -/
def truncateStr (t : Tag) (slice : Bytes) (size : Nat) : M (World R N) ε (Tag × Bytes) :=
  passShared t (N + 1) (N + 1 + slice.length) fun t =>
    if slice.length ≤ size then do
      let t ← retagShared t (N + 1) (N + 1 + slice.length) false
      pure (t, slice)
    else do
      readBoundary t (N + 1) slice.length size
      if Str.isCharBoundary slice size then cut t slice size
      else do
        let size ← M.lift (subUsize size 1)
        readBoundary t (N + 1) slice.length size
        if Str.isCharBoundary slice size then cut t slice size
        else do
          let size ← M.lift (subUsize size 1)
          readBoundary t (N + 1) slice.length size
          if Str.isCharBoundary slice size then cut t slice size
          else do
            let size ← M.lift (subUsize size 1)
            cut t slice size

/-- `truncate_str(string.as_ref(), Self::capacity() - self.len())`, arraystring.rs:420 and 700. -/
def truncated (self text : Tag) (string : Bytes) : M (World R N) ε (Tag × Bytes) := do
  let a ← through text (N + 1) (N + 1 + string.length) (N + 1) (N + 1 + string.length)
  let n ← len self
  let room ← M.lift (subUsize (ArrayString.capacity N) n)
  let (a, t) ← truncateStr a string room
  let a ← retagShared a (N + 1) (N + 1 + t.length) false
  pure (a, t)

/-- arraystring.rs:416-421 `push_str_truncate`. -/
def pushStrTruncate (self arg : Tag) (string : Bytes) : M (World R N) ε Unit :=
  passShared arg (N + 1) (N + 1 + string.length) fun text => do
    let u ← retagTwoPhase self
    let (a, t) ← truncated self text string
    let _ ← M.attempt (passUnique u 0 (N + 1) fun self => tryPushStr self a t)
    pure ()

/-- `ch.encode_utf8(&mut buf)` -/
def encode (buf : Tag) (ch : Char) : M (World R N) ε Tag := do
  writeAt buf (N + 1) (N + 1 + (Str.encodeUtf8 ch).length)
  retagShared buf (N + 1) (N + 1 + (Str.encodeUtf8 ch).length) false

/-- arraystring.rs:440-446 `try_push`. -/
def tryPush (self : Tag) (ch : Char) : M (World R N) OutOfBounds Unit :=
  withBuf 4 fun buf => do
    let u ← retagTwoPhase self
    let a ← encode buf ch
    passUnique u 0 (N + 1) fun self => tryPushStr self a (Str.encodeUtf8 ch)

/-- arraystring.rs:468-474 `truncate`.  The closure holds a `&mut self.size`; it is made, and passed to
`map`, whatever `is_char_boundary` returned. -/
def truncate (self : Tag) (size : Nat) : M (World R N) Utf8 Unit := do
  let n ← len self
  let len := min n size
  let r ← M.attempt (isCharBoundary self len)
  let c ← retagUnique self N (N + 1) false
  passUnique c N (N + 1) fun c =>
    match r with
    | .ok () => passUnique c N (N + 1) fun c => setSize c (intoLossy len)
    | .error e => M.lift (.err e)

/-- arraystring.rs:489-497 `pop`, with a closure like that of `truncate`. -/
def pop (self : Tag) : M (World R N) ε (Option Char) := do
  let _ ← look self
  let s ← get
  let b ← M.lift s.asStr
  let last := (Str.chars b).getLast?
  let c ← retagUnique self N (N + 1) false
  passUnique c N (N + 1) fun c =>
    match last with
    | none => pure none
    | some ch => passUnique c N (N + 1) fun c => do
      readAt c N (N + 1)
      let s ← get
      let size ← M.lift (subU8 s.size (intoLossy (Str.lenUtf8 ch)))
      setSize c size
      pure (some ch)

/-- arraystring.rs:515-540 `trim`. -/
def trim (self : Tag) : M (World R N) ε Unit := do
  let n ← len self
  let _ ← look self
  let s ← get
  let b ← M.lift s.asStr
  let start := ArrayString.trimStart n (Str.charIndices b)
  let n ← len self
  let _ ← look self
  match ArrayString.trimEnd start n (Str.charIndices b).reverse with
  | none => setSize self 0
  | some stop => do
    let _ ← M.attempt (callMut self fun self => replaceRangeOn self emptyLit (.from_ stop) [])
    let _ ← M.attempt (callMut self fun self => replaceRangeOn self emptyLit (.to start) [])
    pure ()

/-- `self.as_str().is_char_boundary(idx)` -/
def selfBoundary (self : Tag) (idx : Nat) : M (World R N) ε Unit := do
  let (a, n) ← asStr self
  readBoundary a 0 n idx

/-- arraystring.rs:567-569: the loop of `remove`. -/
def removeScan (self : Tag) (stop : Nat) : M (World R N) Error Nat := do
  selfBoundary self stop
  let s ← get
  let b ← M.lift s.asStr
  if Str.isCharBoundary b stop then pure stop
  else if stop < usizeMax then removeScan self (stop + 1)
  else do
    let stop ← M.lift (overflow 0)
    selfBoundary self stop
    pure stop
termination_by usizeMax - stop

/-- arraystring.rs:559-580 `remove`. -/
def remove (self : Tag) (idx : Nat) : M (World R N) Error Char := do
  let n ← len self
  M.try_ (isInsideBoundary (saturatingAdd idx 1) n)
  M.tryM (isCharBoundary self idx)
  let n ← len self
  let stop ← M.lift (if idx = n then .ok idx else addUsize idx 1)
  let stop ← removeScan self stop
  let _ ← look self
  let s ← get
  let b ← M.lift s.asStr
  match Str.get? b idx stop with
  | none => M.lift (.err .outOfBounds)
  | some sub =>
    match (Str.chars sub).head? with
    | none => M.lift (.err .utf8)
    | some ch => do
      let stop ← M.lift (addUsize idx (Str.lenUtf8 ch))
      callMut self fun self => replaceRangeOn self emptyLit (.range idx stop) []
      pure ch

/-- arraystring.rs:656-662 `try_insert_str`. -/
def tryInsertStr (self arg : Tag) (idx : Nat) (string : Bytes) : M (World R N) Error Unit :=
  passShared arg (N + 1) (N + 1 + string.length) fun text => do
    let n ← len self
    M.try_ (isInsideBoundary idx n)
    callMut self fun self => replaceRangeOn self text (.range idx idx) string

/-- arraystring.rs:626-631 `try_insert`. -/
def tryInsert (self : Tag) (idx : Nat) (ch : Char) : M (World R N) Error Unit :=
  withBuf 4 fun buf => do
    let u ← retagTwoPhase self
    let a ← encode buf ch
    passUnique u 0 (N + 1) fun self => tryInsertStr self a idx (Str.encodeUtf8 ch)

/-- arraystring.rs:690-703 `insert_str_truncate`. -/
def insertStrTruncate (self arg : Tag) (idx : Nat) (string : Bytes) : M (World R N) Error Unit :=
  passShared arg (N + 1) (N + 1 + string.length) fun text => do
    let u ← retagTwoPhase self
    let (a, t) ← truncated self text string
    passUnique u 0 (N + 1) fun self => tryInsertStr self a idx t

/-- arraystring.rs:766-771 `clear`. -/
def clear (self : Tag) : M (World R N) ε Unit := setSize self 0

/-- arraystring.rs:72-79 `try_from_str`, called with a `&str` tagged `arg` to the bytes `lo .. hi` of the
string. -/
def tryFromStr (arg : Tag) (lo hi : Nat) (string : Bytes) : M (World R N) OutOfBounds (ArrayString N) :=
  passShared arg lo hi fun t => do
    let r ← withNew lo hi fun s => callMut s fun s => tryPushStr s t string
    pure r.2

/-- arraystring.rs:215-219, the loop of `from_chars_truncate`, as `retain` uses it: `t` is the reference
that `Chars` reads through, `pos` the place of the next character. -/
def retainLoop (t out : Tag) (f : ArrayString.Pred φ) : φ → Nat → List Char → M (World R N) ε φ
  | q, _, [] => pure q
  | q, pos, c :: cs => do
    readAt t (N + 1 + pos) (N + 1 + pos + Str.lenUtf8 c)
    match f q c with
    | none => M.lift .panic
    | some (false, q) => retainLoop t out f q (pos + Str.lenUtf8 c) cs
    | some (true, q) => do
      let r ← M.attempt (callMut out fun out => tryPush out c)
      match r with
      | .ok () => retainLoop t out f q (pos + Str.lenUtf8 c) cs
      | .error _ => pure q

/-- arraystring.rs:599: the new text. -/
def retained (self : Tag) (f : ArrayString.Pred φ) (q : φ) : M (World R N) ε (φ × ArrayString N) := do
  let (a, n) ← asStr self
  let s ← get
  let b ← M.lift s.asStr
  let a ← through a 0 n 0 n
  withNew 0 n fun out => retainLoop a out f q 0 (Str.chars b)

/-- arraystring.rs:594-600 `retain`. -/
def retain (self : Tag) (f : ArrayString.Pred φ) (q : φ) : M (World R N) ε φ := do
  let (q, out) ← retained self f q
  writeAt self 0 (N + 1)
  put out
  pure q

/-- arraystring.rs:814-817: the text that `drain` removes, copied to a new string. -/
def drained (self : Tag) (start stop : Nat) (slice : Bytes) : M (World R N) OutOfBounds (ArrayString N) := do
  let (a, n) ← asStr self
  let a ← through a 0 n start stop
  tryFromStr a start stop slice

/-- arraystring.rs:790-820 `drain`. -/
def drain (self : Tag) (r : RangeB) : M (World R N) Error (ArrayString.Drain N) := do
  let start := ArrayString.rangeStart r
  let stop ← rangeEnd self r
  M.try_ (isInsideBoundary start stop)
  let n ← len self
  M.try_ (isInsideBoundary stop n)
  M.tryM (isCharBoundary self start)
  M.tryM (isCharBoundary self stop)
  let n ← len self
  M.lift (debugAssert (start ≤ stop && stop ≤ n))
  let s ← get
  let b ← M.lift s.asStr
  selfBoundary self start
  M.lift (debugAssert (Str.isCharBoundary b start))
  selfBoundary self stop
  M.lift (debugAssert (Str.isCharBoundary b stop))
  let slice ← M.lift (Str.getUnchecked b start stop)
  let d ← M.tryM (drained self start stop slice)
  callMut self fun self => replaceRangeOn self emptyLit (.range start stop) []
  pure ⟨d⟩

/-- arraystring.rs:745-751 `split_off`. -/
def splitOff (self : Tag) (at_ : Nat) : M (World R N) Error (ArrayString N) := do
  let d ← callMut self fun self => drain self (.from_ at_)
  pure d.inner

/-- implementations.rs:212-221 `fmt::Write::write_str`. -/
def writeStr (self arg : Tag) (slice : Bytes) : M (World R N) FmtError Unit :=
  passShared arg (N + 1) (N + 1 + slice.length) fun text =>
    M.mapErr (fun _ => {}) (callMut self fun self => tryPushStr self text slice)

end Verif.Borrow
