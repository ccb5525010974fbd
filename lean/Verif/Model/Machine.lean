import Verif.Model.BorrowOps

/-!
# The methods written with loads and stores

In `Model/Borrow` to `Model/BorrowOps` the contents of the string are kept apart from the accesses: a
method says what it reads and writes through which tag, and computes with the string of the plain model.
Here there is only memory: bytes, and what the aliasing rules remember about each.  A method gets tags and
lengths, and every byte that it looks at comes from a load through a tag, at the time of the load; every
byte that it changes is stored.  So no access can be left out.

Addresses and the order of the accesses are as in `Model/Borrow`: `0 .. N` are the `array` field, `N` is the
`size` field, `N + 1 ..` the text passed as an argument.
-/

namespace Verif.Machine
open Spec
open Borrow (Rules Tag feed widest decoded emptyLit)

/-- The memory: the bytes, and what the rules remember about each. -/
structure Mem (R : Rules) (N : Nat) where
  bytes : Nat → UInt8
  mem : Nat → R.St
  next : Tag

variable {R : Rules} {N : Nat} {ε α φ : Type}

/-- The bytes at `lo .. lo + n`. -/
def Mem.slice (m : Mem R N) (lo n : Nat) : Bytes := (List.range' lo n).map m.bytes

/-- The value of the string at the addresses `0 ..= N`. -/
def Mem.str (m : Mem R N) : ArrayString N := ⟨m.slice 0 N, m.bytes N⟩

/-- The bytes of a string. -/
def bytesOf (s : ArrayString N) (l : Nat) : UInt8 := if l < N then (s.array[l]?).getD 0 else s.size

/-! ## Tags: as in `Model/Borrow` -/

/-- Apply a rule to the bytes `lo .. hi`. -/
def touch (lo hi : Nat) (f : R.St → Option R.St) : M (Mem R N) ε Unit := fun m =>
  if (List.range' lo (hi - lo)).all (fun l => (f (m.mem l)).isSome) then
    (.ok (), { m with mem := fun l =>
      let st := m.mem l
      if lo ≤ l ∧ l < hi then (f st).getD st else st })
  else (.ub, m)

def fresh : M (Mem R N) ε Tag := fun m => (.ok m.next, { m with next := m.next + 1 })

/-- `&*t` -/
def retagShared (t : Tag) (lo hi : Nat) (protect : Bool) : M (Mem R N) ε Tag := do
  let u ← fresh
  touch lo hi (R.shared t u protect)
  pure u

/-- `&mut *t` -/
def retagUnique (t : Tag) (lo hi : Nat) (protect : Bool) : M (Mem R N) ε Tag := do
  let u ← fresh
  touch lo hi (R.unique t u protect)
  pure u

/-- The `&mut *self` of `self.method(..)`. -/
def retagTwoPhase (self : Tag) : M (Mem R N) ε Tag := do
  let t ← fresh
  touch 0 (N + 1) (R.twoPhase self t)
  pure t

def release (t : Tag) (lo hi : Nat) : M (Mem R N) ε Unit := touch lo hi (R.release t)

/-- Run a function whose argument `t` is protected. -/
def protecting (t : Tag) (lo hi : Nat) (body : M (Mem R N) ε α) : M (Mem R N) ε α := fun m =>
  match body m with
  | (.ub, m) => (.ub, m)
  | (.diverge, m) => (.diverge, m)
  | (r, m) =>
    match (release t lo hi : M (Mem R N) Empty Unit) m with
    | (.ok (), m) => (r, m)
    | (_, m) => (.ub, m)

/-- Pass a `&` to a function. -/
def passShared (t : Tag) (lo hi : Nat) (body : Tag → M (Mem R N) ε α) : M (Mem R N) ε α := do
  let u ← retagShared t lo hi true
  protecting u lo hi (body u)

/-- Pass a `&mut` to a function. -/
def passUnique (t : Tag) (lo hi : Nat) (body : Tag → M (Mem R N) ε α) : M (Mem R N) ε α := do
  let u ← retagUnique t lo hi true
  protecting u lo hi (body u)

/-- Pass a `&` through a function that gives back a `&` to the part `lo' .. hi'` of it. -/
def through (t : Tag) (lo hi lo' hi' : Nat) : M (Mem R N) ε Tag := do
  let v ← passShared t lo hi fun u => retagShared u lo' hi' false
  retagShared v lo' hi' false

/-- Pass a `&mut` through a function that gives back a `&mut` to the part `lo' .. hi'` of it. -/
def throughMut (t : Tag) (lo hi lo' hi' : Nat) : M (Mem R N) ε Tag := do
  let u ← retagUnique t lo hi true
  let v ← retagUnique u lo' hi' false
  release u lo hi
  retagUnique v lo' hi' false

/-- The same through a function that makes the `&mut` it gives back from a raw pointer. -/
def throughRaw (t : Tag) (lo hi lo' hi' : Nat) : M (Mem R N) ε Tag := do
  let u ← retagUnique t lo hi true
  let p ← fresh
  touch lo hi (R.rawMut u p)
  let v ← retagUnique (R.rawTag u p) lo' hi' false
  release u lo hi
  retagUnique v lo' hi' false

/-- Call a function with `&self`. -/
def callShared (self : Tag) (body : Tag → M (Mem R N) ε α) : M (Mem R N) ε α := do
  let t ← retagShared self 0 (N + 1) false
  passShared t 0 (N + 1) body

/-- The same for a function that gives back a reference to the text, and its length. -/
def callRef (self : Tag) (body : Tag → M (Mem R N) ε (Tag × Nat)) : M (Mem R N) ε (Tag × Nat) := do
  let (a, n) ← callShared self body
  let a ← retagShared a 0 n false
  pure (a, n)

/-- Call a function with a `&mut ArrayString<N>` that gives back a `&mut` to the text, and its length. -/
def passRef (t : Tag) (body : Tag → M (Mem R N) ε (Tag × Nat)) : M (Mem R N) ε (Tag × Nat) := do
  let (a, n) ← passUnique t 0 (N + 1) body
  let a ← retagUnique a 0 n false
  pure (a, n)

/-- `self.method(..)`, where the arguments do not use `self`. -/
def callMut (self : Tag) (body : Tag → M (Mem R N) ε α) : M (Mem R N) ε α := do
  let t ← retagTwoPhase self
  passUnique t 0 (N + 1) body

/-! ## Loads and stores -/

/-- The only way to bytes: read `n` bytes through `t`. -/
def load (t : Tag) (lo n : Nat) : M (Mem R N) ε Bytes := do
  touch lo (lo + n) (R.read t)
  fun m => (.ok (m.slice lo n), m)

/-- Write bytes through `t`. -/
def store (t : Tag) (lo : Nat) (b : Bytes) : M (Mem R N) ε Unit := do
  touch lo (lo + b.length) (R.write t)
  fun m => (.ok (), { m with bytes := fun l => if lo ≤ l then (b[l - lo]?).getD (m.bytes l) else m.bytes l })

/-- Read one byte. -/
def loadByte (t : Tag) (l : Nat) : M (Mem R N) ε UInt8 := do
  let b ← load t l 1
  pure (b.headD 0)

/-- Read a whole string. -/
def loadString (t : Tag) : M (Mem R N) ε (ArrayString N) := do
  let b ← load t 0 (N + 1)
  pure ⟨b.take N, (b.drop N).headD 0⟩

/-- Write a whole string. -/
def storeString (t : Tag) (s : ArrayString N) : M (Mem R N) ε Unit :=
  store t 0 ((List.range' 0 (N + 1)).map (bytesOf s))

/-- What the caller of `str::get_unchecked(a..b)` promises, on the text at `lo .. lo + n`: undefined behaviour
if `a` or `b` is out of range or inside a character.  Nothing is read. -/
def promised (lo n a b : Nat) : M (Mem R N) ε Unit := fun m =>
  (Str.getUnchecked (m.slice lo n) a b >>= fun _ => .ok (), m)

/-! ## Memory of others -/

/-- The caller has put a text where its `&str` points. -/
def place (b : Bytes) : M (Mem R N) ε Unit := fun m =>
  (.ok (), { m with bytes := fun l => if N + 1 ≤ l then (b[l - (N + 1)]?).getD (m.bytes l) else m.bytes l })

/-- `let mut buf = init;`, used as the memory of the text argument in `body`. -/
def withBuf (init : Bytes) (body : Tag → M (Mem R N) ε α) : M (Mem R N) ε α := fun m =>
  let v : Mem R N := {
    bytes := fun l => if l ≤ N then m.bytes l else (init[l - (N + 1)]?).getD 0
    mem := fun l => if l ≤ N then m.mem l else if l < N + 1 + init.length then R.alloc m.next else R.empty
    next := m.next + 1 }
  let (r, v) := body m.next v
  (r, { bytes := fun l => if l ≤ N then v.bytes l else m.bytes l
        mem := fun l => if l ≤ N then v.mem l else m.mem l
        next := max m.next v.next })

/-- `let mut s = init;`.  In `body` that is the string, and the bytes `lo .. hi` of the old memory are the text
argument.  The last value of the variable is returned. -/
def withLocal (init : ArrayString N) (lo hi : Nat) (body : Tag → M (Mem R N) ε α) :
    M (Mem R N) ε (α × ArrayString N) := fun m =>
  let v : Mem R N := {
    bytes := fun l => if l ≤ N then bytesOf init l else m.bytes (lo + (l - (N + 1)))
    mem := fun l => if l ≤ N then R.alloc m.next
      else if l < N + 1 + (hi - lo) then m.mem (lo + (l - (N + 1))) else R.empty
    next := m.next + 1 }
  let (r, v) := body m.next v
  (r >>= fun a => .ok (a, v.str),
    { bytes := fun l => if lo ≤ l ∧ l < hi then v.bytes (N + 1 + (l - lo)) else m.bytes l
      mem := fun l => if lo ≤ l ∧ l < hi then v.mem (N + 1 + (l - lo)) else m.mem l
      next := max m.next v.next })

/-- `let mut s = Self::new();` -/
def withNew (lo hi : Nat) (body : Tag → M (Mem R N) ε α) : M (Mem R N) ε (α × ArrayString N) :=
  withLocal .new lo hi body

/-! ## The functions that only read -/

/-- arraystring.rs:719-724 `len`. -/
def len (self : Tag) : M (Mem R N) ε Nat := callShared self fun self => do
  let b ← loadByte self N
  pure b.toNat

/-- implementations.rs:57-68 `AsRef<[u8]>::as_ref`: the reference to the text, and its length. -/
def asRefBytes (self : Tag) : M (Mem R N) ε (Tag × Nat) := callRef self fun self => do
  let n ← len self
  M.lift (debugAssert (n ≤ N))
  let a ← retagShared self 0 N false
  let a ← through a 0 N 0 N
  let n ← len self
  M.lift (if n ≤ N then .ok () else .ub)
  let a ← through a 0 N 0 n
  pure (a, n)

/-- implementations.rs:23-36 `AsRef<str>::as_ref`. -/
def asRefStr (self : Tag) : M (Mem R N) ε (Tag × Nat) := callRef self fun self => do
  let (a, n) ← asRefBytes self
  let b ← load a 0 n
  M.lift (debugAssert (Str.validUtf8 b))
  let (a, n) ← asRefBytes self
  let _ ← M.lift (Str.fromUtf8Unchecked b)
  let a ← through a 0 n 0 n
  pure (a, n)

/-- arraystring.rs:336-341 `as_str`. -/
def asStr (self : Tag) : M (Mem R N) ε (Tag × Nat) := callRef self asRefStr

/-- `str::is_char_boundary` on the text at `lo .. lo + n`. -/
def boundaryAt (t : Tag) (lo n idx : Nat) : M (Mem R N) ε Bool :=
  passShared t lo (lo + n) fun t =>
    if idx ≠ 0 ∧ idx < n then do
      let x ← loadByte t (lo + idx)
      pure (x.toNat < 128 || 192 ≤ x.toNat)
    else pure (idx == 0 || idx == n)

/-- `self.as_str().is_char_boundary(idx)` -/
def selfBoundary (self : Tag) (idx : Nat) : M (Mem R N) ε Bool := do
  let (a, n) ← asStr self
  boundaryAt a 0 n idx

/-- utils.rs:21-33 `is_char_boundary`. -/
def isCharBoundary (self : Tag) (idx : Nat) : M (Mem R N) Utf8 Unit := do
  let ok ← callShared self fun self => selfBoundary self idx
  M.lift (if ok then .ok () else .err {})

/-- `as_str`, and the text. -/
def look (caller : Tag) : M (Mem R N) ε Bytes := do
  let (a, n) ← asStr caller
  load a 0 n

/-! ## `replace_range` -/

/-- `self.array.as_mut_ptr()` (arraystring.rs:875). -/
def asMutPtr (self : Tag) : M (Mem R N) ε Tag := do
  let a ← retagUnique self 0 N false
  let a ← retagUnique a 0 N false
  let a ← retagUnique a 0 N true
  let p ← fresh
  touch 0 N (R.rawMut a p)
  release a 0 N
  pure (R.rawTag a p)

/-- arraystring.rs:883-885: `core::ptr::copy(cut_end, str_end, self.len() - end)`. -/
def moveTail (self p : Tag) (stop cutEnd strEnd : Nat) : M (Mem R N) Error Unit :=
  if cutEnd ≠ strEnd then do
    let n ← len self
    let k ← M.lift (subUsize n stop)
    let b ← load p cutEnd k
    store p strEnd b
  else pure ()

/-- arraystring.rs:886-888: `core::ptr::copy_nonoverlapping(str.as_ptr(), cut_start, str.len())`. -/
def copyText (text p : Tag) (cutStart n : Nat) : M (Mem R N) Error Unit :=
  if n ≠ 0 then do
    let q ← through text (N + 1) (N + 1 + n) (N + 1) (N + 1 + n)
    let b ← load q (N + 1) n
    store p cutStart b
  else pure ()

/-- arraystring.rs:851-855: `end`. -/
def rangeEnd (self : Tag) (r : RangeB) : M (Mem R N) ε Nat :=
  match r.stop with
  | .included t => pure (saturatingAdd t 1)
  | .excluded t => pure t
  | .unbounded => len self

/-- `self.size = size` -/
def setSize (self : Tag) (size : UInt8) : M (Mem R N) ε Unit := store self N [size]

/-- arraystring.rs:875-890: the part of `replace_range` that writes. -/
def replaceWrite (self text : Tag) (start stop k : Nat) : M (Mem R N) Error Unit := do
  let p ← asMutPtr self
  let cutStart ← M.lift (ptrAdd N start)
  let cutEnd ← M.lift (ptrAdd N stop)
  let strEnd ← M.lift (ptrAdd N (cutStart + k))
  moveTail self p stop cutEnd strEnd
  copyText text p cutStart k
  let n ← len self
  let a ← M.lift (addUsize n k)
  let b ← M.lift (addUsize a start)
  let total ← M.lift (subUsize b stop)
  setSize self (intoLossy total)

/-- arraystring.rs:838-892 `replace_range`, with a text of `k` bytes, tagged `text`. -/
def replaceRangeBody (self text : Tag) (r : RangeB) (k : Nat) : M (Mem R N) Error Unit := do
  let start := ArrayString.rangeStart r
  let stop ← rangeEnd self r
  if start = stop ∧ k = 0 then pure ()
  else do
    M.try_ (isInsideBoundary start stop)
    let n ← len self
    M.try_ (isInsideBoundary stop n)
    M.try_ (isInsideBoundary k (ArrayString.capacity N))
    M.tryM (isCharBoundary self start)
    M.tryM (isCharBoundary self stop)
    let n ← len self
    let a ← M.lift (addUsize n k)
    let b ← M.lift (addUsize a start)
    let total ← M.lift (subUsize b stop)
    M.try_ (isInsideBoundary total (ArrayString.capacity N))
    replaceWrite self text start stop k

/-- arraystring.rs:838-892 `replace_range`, with its `&mut self` tagged `self`, called with a `&str` tagged
`arg` of length `k`. -/
def replaceRangeOn (self arg : Tag) (r : RangeB) (k : Nat) : M (Mem R N) Error Unit :=
  passShared arg (N + 1) (N + 1 + k) fun text => do
    let a ← through text (N + 1) (N + 1 + k) (N + 1) (N + 1 + k)
    let a ← through a (N + 1) (N + 1 + k) (N + 1) (N + 1 + k)
    replaceRangeBody self a r k

/-! ## The methods -/

/-- arraystring.rs:389-396 `try_push_str`. -/
def tryPushStr (self arg : Tag) (k : Nat) : M (Mem R N) OutOfBounds Unit :=
  passShared arg (N + 1) (N + 1 + k) fun text => do
    let n ← len self
    M.mapErr (fun _ => {}) (callMut self fun self => replaceRangeOn self text (.range n n) k)

/-- `slice.get_unchecked(..size)` on a text of `k` bytes. -/
def cut (t : Tag) (k size : Nat) : M (Mem R N) ε (Tag × Nat) := do
  promised (N + 1) k 0 size
  let t ← through t (N + 1) (N + 1 + k) (N + 1) (N + 1 + size)
  pure (t, size)

/-- utils.rs:35-61 `truncate_str`: the reference it returns, and its length. -/
def truncateStr (t : Tag) (k size : Nat) : M (Mem R N) ε (Tag × Nat) :=
  passShared t (N + 1) (N + 1 + k) fun t =>
    if k ≤ size then do
      let t ← retagShared t (N + 1) (N + 1 + k) false
      pure (t, k)
    else do
      let ok ← boundaryAt t (N + 1) k size
      if ok then cut t k size
      else do
        let size ← M.lift (subUsize size 1)
        let ok ← boundaryAt t (N + 1) k size
        if ok then cut t k size
        else do
          let size ← M.lift (subUsize size 1)
          let ok ← boundaryAt t (N + 1) k size
          if ok then cut t k size
          else do
            let size ← M.lift (subUsize size 1)
            cut t k size

/-- `truncate_str(string.as_ref(), Self::capacity() - self.len())`, arraystring.rs:420 and 700. -/
def truncated (self text : Tag) (k : Nat) : M (Mem R N) ε (Tag × Nat) := do
  let a ← through text (N + 1) (N + 1 + k) (N + 1) (N + 1 + k)
  let n ← len self
  let room ← M.lift (subUsize (ArrayString.capacity N) n)
  let (a, k) ← truncateStr a k room
  let a ← retagShared a (N + 1) (N + 1 + k) false
  pure (a, k)

/-- arraystring.rs:416-421 `push_str_truncate`. -/
def pushStrTruncate (self arg : Tag) (k : Nat) : M (Mem R N) ε Unit :=
  passShared arg (N + 1) (N + 1 + k) fun text => do
    let u ← retagTwoPhase self
    let (a, k) ← truncated self text k
    let _ ← M.attempt (passUnique u 0 (N + 1) fun self => tryPushStr self a k)
    pure ()

/-- `ch.encode_utf8(&mut buf)`: the reference, and its length. -/
def encode (buf : Tag) (ch : Char) : M (Mem R N) ε (Tag × Nat) := do
  store buf (N + 1) (Str.encodeUtf8 ch)
  let a ← retagShared buf (N + 1) (N + 1 + (Str.encodeUtf8 ch).length) false
  pure (a, (Str.encodeUtf8 ch).length)

/-- arraystring.rs:440-446 `try_push`. -/
def tryPush (self : Tag) (ch : Char) : M (Mem R N) OutOfBounds Unit :=
  withBuf (List.replicate 4 0) fun buf => do
    let u ← retagTwoPhase self
    let (a, k) ← encode buf ch
    passUnique u 0 (N + 1) fun self => tryPushStr self a k

/-- arraystring.rs:468-474 `truncate`. -/
def truncate (self : Tag) (size : Nat) : M (Mem R N) Utf8 Unit := do
  let n ← len self
  let len := min n size
  let r ← M.attempt (isCharBoundary self len)
  let c ← retagUnique self N (N + 1) false
  passUnique c N (N + 1) fun c =>
    match r with
    | .ok () => passUnique c N (N + 1) fun c => setSize c (intoLossy len)
    | .error e => M.lift (.err e)

/-- arraystring.rs:489-497 `pop`. -/
def pop (self : Tag) : M (Mem R N) ε (Option Char) := do
  let b ← look self
  let last := (Str.chars b).getLast?
  let c ← retagUnique self N (N + 1) false
  passUnique c N (N + 1) fun c =>
    match last with
    | none => pure none
    | some ch => passUnique c N (N + 1) fun c => do
      let size ← loadByte c N
      let size ← M.lift (subU8 size (intoLossy (Str.lenUtf8 ch)))
      setSize c size
      pure (some ch)

/-- arraystring.rs:515-540 `trim`. -/
def trim (self : Tag) : M (Mem R N) ε Unit := do
  let n ← len self
  let b ← look self
  let start := ArrayString.trimStart n (Str.charIndices b)
  let n ← len self
  let b ← look self
  match ArrayString.trimEnd start n (Str.charIndices b).reverse with
  | none => setSize self 0
  | some stop => do
    let _ ← M.attempt (callMut self fun self => replaceRangeOn self emptyLit (.from_ stop) 0)
    let _ ← M.attempt (callMut self fun self => replaceRangeOn self emptyLit (.to start) 0)
    pure ()

/-- arraystring.rs:567-569: the loop of `remove`. -/
def removeScan (self : Tag) (stop : Nat) : M (Mem R N) Error Nat := do
  let ok ← selfBoundary self stop
  if ok then pure stop
  else if stop < usizeMax then removeScan self (stop + 1)
  else do
    let stop ← M.lift (overflow 0)
    let _ ← selfBoundary self stop
    pure stop
termination_by usizeMax - stop

/-- arraystring.rs:559-580 `remove`. -/
def remove (self : Tag) (idx : Nat) : M (Mem R N) Error Char := do
  let n ← len self
  M.try_ (isInsideBoundary (saturatingAdd idx 1) n)
  M.tryM (isCharBoundary self idx)
  let n ← len self
  let stop ← M.lift (if idx = n then .ok idx else addUsize idx 1)
  let stop ← removeScan self stop
  let b ← look self
  match Str.get? b idx stop with
  | none => M.lift (.err .outOfBounds)
  | some sub =>
    match (Str.chars sub).head? with
    | none => M.lift (.err .utf8)
    | some ch => do
      let stop ← M.lift (addUsize idx (Str.lenUtf8 ch))
      callMut self fun self => replaceRangeOn self emptyLit (.range idx stop) 0
      pure ch

/-- arraystring.rs:656-662 `try_insert_str`. -/
def tryInsertStr (self arg : Tag) (idx k : Nat) : M (Mem R N) Error Unit :=
  passShared arg (N + 1) (N + 1 + k) fun text => do
    let n ← len self
    M.try_ (isInsideBoundary idx n)
    callMut self fun self => replaceRangeOn self text (.range idx idx) k

/-- arraystring.rs:626-631 `try_insert`. -/
def tryInsert (self : Tag) (idx : Nat) (ch : Char) : M (Mem R N) Error Unit :=
  withBuf (List.replicate 4 0) fun buf => do
    let u ← retagTwoPhase self
    let (a, k) ← encode buf ch
    passUnique u 0 (N + 1) fun self => tryInsertStr self a idx k

/-- arraystring.rs:690-703 `insert_str_truncate`. -/
def insertStrTruncate (self arg : Tag) (idx k : Nat) : M (Mem R N) Error Unit :=
  passShared arg (N + 1) (N + 1 + k) fun text => do
    let u ← retagTwoPhase self
    let (a, k) ← truncated self text k
    passUnique u 0 (N + 1) fun self => tryInsertStr self a idx k

/-- arraystring.rs:766-771 `clear`. -/
def clear (self : Tag) : M (Mem R N) ε Unit := setSize self 0

/-- arraystring.rs:72-79 `try_from_str`, called with a `&str` tagged `arg` to the bytes `lo .. hi`. -/
def tryFromStr (arg : Tag) (lo hi : Nat) : M (Mem R N) OutOfBounds (ArrayString N) :=
  passShared arg lo hi fun t => do
    let r ← withNew lo hi fun s => callMut s fun s => tryPushStr s t (hi - lo)
    pure r.2

/-- `Chars::next` (core/src/str/validations.rs, `next_code_point`) on the text at `N + 1 ..`, at the byte `pos`: the
first byte says how many follow.  The character, and where the next one starts. -/
def nextChar (t : Tag) (pos : Nat) : M (Mem R N) ε (Char × Nat) := do
  let x ← loadByte t (N + 1 + pos)
  let more := if x.toNat < 128 then 0 else if x.toNat < 0xE0 then 1 else if x.toNat < 0xF0 then 2 else 3
  let rest ← load t (N + 1 + (pos + 1)) more
  match Str.nextCodePoint (x :: rest) with
  | none => M.lift .ub
  | some (v, k) => pure (Char.ofNat v, pos + k)

/-- arraystring.rs:215-219, the loop of `from_chars_truncate`, as `retain` uses it, over a text of `n` bytes.  `fuel`
bounds the number of characters. -/
def retainLoop (t out : Tag) (f : ArrayString.Pred φ) (n : Nat) : Nat → φ → Nat → M (Mem R N) ε φ
  | 0, q, pos => if pos < n then M.lift .diverge else pure q
  | fuel + 1, q, pos =>
    if pos < n then do
      let (c, pos) ← nextChar t pos
      match f q c with
      | none => M.lift .panic
      | some (false, q) => retainLoop t out f n fuel q pos
      | some (true, q) => do
        let r ← M.attempt (callMut out fun out => tryPush out c)
        match r with
        | .ok () => retainLoop t out f n fuel q pos
        | .error _ => pure q
    else pure q

/-- arraystring.rs:599: the new text. -/
def retained (self : Tag) (f : ArrayString.Pred φ) (q : φ) : M (Mem R N) ε (φ × ArrayString N) := do
  let (a, n) ← asStr self
  let a ← through a 0 n 0 n
  withNew 0 n fun out => retainLoop a out f n n q 0

/-- arraystring.rs:594-600 `retain`. -/
def retain (self : Tag) (f : ArrayString.Pred φ) (q : φ) : M (Mem R N) ε φ := do
  let (q, out) ← retained self f q
  storeString self out
  pure q

/-- arraystring.rs:814-817: the text that `drain` removes, copied to a new string. -/
def drained (self : Tag) (start stop : Nat) : M (Mem R N) OutOfBounds (ArrayString N) := do
  let (a, n) ← asStr self
  promised 0 n start stop
  let a ← through a 0 n start stop
  tryFromStr a start stop

/-- arraystring.rs:790-820 `drain`. -/
def drain (self : Tag) (r : RangeB) : M (Mem R N) Error (ArrayString.Drain N) := do
  let start := ArrayString.rangeStart r
  let stop ← rangeEnd self r
  M.try_ (isInsideBoundary start stop)
  let n ← len self
  M.try_ (isInsideBoundary stop n)
  M.tryM (isCharBoundary self start)
  M.tryM (isCharBoundary self stop)
  let n ← len self
  M.lift (debugAssert (start ≤ stop && stop ≤ n))
  let ok ← selfBoundary self start
  M.lift (debugAssert ok)
  let ok ← selfBoundary self stop
  M.lift (debugAssert ok)
  let d ← M.tryM (drained self start stop)
  callMut self fun self => replaceRangeOn self emptyLit (.range start stop) 0
  pure ⟨d⟩

/-- arraystring.rs:745-751 `split_off`. -/
def splitOff (self : Tag) (at_ : Nat) : M (Mem R N) Error (ArrayString N) := do
  let d ← callMut self fun self => drain self (.from_ at_)
  pure d.inner

/-- implementations.rs:212-221 `fmt::Write::write_str`. -/
def writeStr (self arg : Tag) (k : Nat) : M (Mem R N) FmtError Unit :=
  passShared arg (N + 1) (N + 1 + k) fun text =>
    M.mapErr (fun _ => {}) (callMut self fun self => tryPushStr self text k)

/-! ## Constructors -/

/-- arraystring.rs:97-104 `from_str_truncate`. -/
def fromStrTruncate (arg : Tag) (k : Nat) : M (Mem R N) ε (ArrayString N) :=
  passShared arg (N + 1) (N + 1 + k) fun t => do
    let r ← withNew (N + 1) (N + 1 + k) fun s => callMut s fun s => pushStrTruncate s t k
    pure r.2

/-- arraystring.rs:121-132 `try_from_iterator`. -/
def tryFromIterator (arg : Tag) (l : Script Bytes) : M (Mem R N) OutOfBounds (ArrayString N) := do
  let r ← withNew (N + 1) (N + 1 + widest List.length l) fun out =>
    feed (fun s => do
      place s
      callMut out fun out => tryPushStr out arg s.length
      pure true) l
  pure r.2

/-- arraystring.rs:153-165 `from_iterator_truncate`. -/
def fromIteratorTruncate (arg : Tag) (l : Script ArrayString.AsRefTwice) : M (Mem R N) ε (ArrayString N) := do
  let r ← withNew (N + 1) (N + 1 + widest (fun s => max s.first.length s.second.length) l) fun out =>
    feed (fun s => do
      let u ← retagTwoPhase out
      place s.first
      let a ← through arg (N + 1) (N + 1 + s.first.length) (N + 1) (N + 1 + s.first.length)
      let r ← M.attempt (passUnique u 0 (N + 1) fun out => tryPushStr out a s.first.length)
      match r with
      | .ok () => pure true
      | .error _ => do
        place s.second
        callMut out fun out => pushStrTruncate out arg s.second.length
        pure false) l
  pure r.2

/-- arraystring.rs:183-192 `try_from_chars`. -/
def tryFromChars (l : Script Char) : M (Mem R N) OutOfBounds (ArrayString N) := do
  let r ← withNew 0 0 fun out =>
    feed (fun c => do
      callMut out fun out => tryPush out c
      pure true) l
  pure r.2

/-- `if out.try_push(c).is_err() { break; }` -/
def pushOrBreak (out : Tag) (c : Char) : M (Mem R N) ε Bool := do
  let r ← M.attempt (callMut out fun out => tryPush out c)
  match r with
  | .ok () => pure true
  | .error _ => pure false

/-- arraystring.rs:210-221 `from_chars_truncate`. -/
def fromCharsTruncate (l : Script Char) : M (Mem R N) ε (ArrayString N) := do
  let r ← withNew 0 0 fun out => feed (pushOrBreak out) l
  pure r.2

/-- arraystring.rs:245-254 `try_from_utf16`. -/
def tryFromUtf16 (slice : List UInt16) : M (Mem R N) Error (ArrayString N) := do
  let r ← withNew 0 0 fun out =>
    feed (fun c =>
      match c with
      | none => M.lift (.err (ErrFrom.from_ DecodeUtf16Error.mk))
      | some c => do
        M.tryM (callMut out fun out => tryPush out c)
        pure true) (decoded (none, slice))
  pure r.2

/-- arraystring.rs:278-289 `from_utf16_truncate`. -/
def fromUtf16Truncate (slice : List UInt16) : M (Mem R N) Utf16 (ArrayString N) := do
  let r ← withNew 0 0 fun out =>
    feed (fun c =>
      match c with
      | none => M.lift (.err (ErrFrom.from_ DecodeUtf16Error.mk))
      | some c => pushOrBreak out c) (decoded (none, slice))
  pure r.2

/-- arraystring.rs:312-323 `from_utf16_lossy_truncate`. -/
def fromUtf16LossyTruncate (slice : List UInt16) : M (Mem R N) ε (ArrayString N) := do
  let r ← withNew 0 0 fun out =>
    feed (fun c => pushOrBreak out (c.getD Str.replacementCharacter)) (decoded (none, slice))
  pure r.2

/-! ## The traits -/

/-- `self.push_str_truncate(string)` (implementations.rs:284 and 304) with a string that `make` makes while
the borrow of `self` waits; its text is a new variable. -/
def extend (self : Tag) (make : M (Mem R N) ε (ArrayString N)) : M (Mem R N) ε Unit := do
  let u ← retagTwoPhase self
  let t ← make
  let b ← M.lift t.asRefStr
  withBuf b fun a => passUnique u 0 (N + 1) fun self => pushStrTruncate self a b.length

/-- implementations.rs:205-209 `Add::add`, called with the string `s`. -/
def addTo (s : ArrayString N) (arg : Tag) (k : Nat) : M (Mem R N) ε (ArrayString N) :=
  passShared arg (N + 1) (N + 1 + k) fun t => do
    let r ← withLocal s (N + 1) (N + 1 + k) fun s => callMut s fun s => pushStrTruncate s t k
    pure r.2

/-- Call `add`; the operand is a copy of the caller's string. -/
def add (caller arg : Tag) (k : Nat) : M (Mem R N) ε (ArrayString N) := do
  let s ← loadString caller
  addTo s arg k

/-- `fmt::write` with literals only. -/
def writeAll (self arg : Tag) : List Bytes → M (Mem R N) FmtError Unit
  | [] => pure ()
  | s :: l => do
    if s.isEmpty then pure () else do
      place s
      callMut self fun self => writeStr self arg s.length
    writeAll self arg l

/-- The methods that take the text by `as_str` and read it: `Display`, `Hash`, `PartialEq<str>`. -/
def reading (caller : Tag) : M (Mem R N) ε Bytes := callShared caller fun self => do
  let (a, n) ← asStr self
  passShared a 0 n fun a => load a 0 n

/-- implementations.rs:376-452 the `Index` impls: the slice they return, and where it is. -/
def indexRef (caller : Tag) (i : IdxU8) : M (Mem R N) ε (Tag × Nat × Nat) := do
  let (a, x, y) ← callShared caller fun self => do
    let (a, n) ← asStr self
    let (a, x, y) ← passShared a 0 n fun a =>
      match i.toUsize.resolve n with
      | none => M.lift .panic
      | some (x, y) => do
        let ok ← boundaryAt a 0 n x
        let ok' ← boundaryAt a 0 n y
        M.lift (if x ≤ y ∧ ok ∧ ok' then .ok () else .panic)
        let a ← retagShared a x y false
        pure (a, x, y)
    let a ← retagShared a x y false
    pure (a, x, y)
  let a ← retagShared a x y false
  pure (a, x, y)

/-- An index and a look at the slice. -/
def index (caller : Tag) (i : IdxU8) : M (Mem R N) ε Bytes := do
  let (a, x, y) ← indexRef caller i
  load a x (y - x)

/-- implementations.rs:38-55 `AsMut<str>::as_mut`, with its `&mut self` tagged `self`: the `&mut str` it
returns, and its length. -/
def asMutOn (self : Tag) : M (Mem R N) ε (Tag × Nat) := do
  let n ← len self
  M.lift (debugAssert (n ≤ N))
  let a ← retagUnique self 0 N false
  let a ← throughMut a 0 N 0 N
  M.lift (if n ≤ N then .ok () else .ub)
  let slice ← throughRaw a 0 N 0 n
  let t ← retagShared slice 0 n false
  let b ← passShared t 0 n fun t => load t 0 n
  M.lift (debugAssert (Str.validUtf8 b))
  let _ ← M.lift (Str.fromUtf8Unchecked b)
  let u ← throughRaw slice 0 n 0 n
  pure (u, n)

/-- arraystring.rs:354-359 `as_mut_str`, with its `&mut self` tagged `self`. -/
def asMutStrOn (self : Tag) : M (Mem R N) ε (Tag × Nat) := do
  let t ← retagTwoPhase self
  passRef t asMutOn

/-- Call `as_mut_str`. -/
def asMutStr (caller : Tag) : M (Mem R N) ε (Tag × Nat) := do
  let t ← retagTwoPhase caller
  passRef t asMutStrOn

/-- Replace the text at `lo .. lo + n` by another text of the same length, through `u`. -/
def rewrite (u : Tag) (lo n : Nat) (edit : Bytes → Bytes) : M (Mem R N) ε Unit := do
  let b ← load u lo n
  M.lift (if (edit b).length = n ∧ Str.validUtf8 (edit b) then .ok () else .ub)
  store u lo (edit b)

/-- An edit of the text. -/
def editText (caller : Tag) (edit : Bytes → Bytes) : M (Mem R N) ε Unit := do
  let (u, n) ← asMutStr caller
  rewrite u 0 n edit

/-- implementations.rs:308-374 the `IndexMut` impls, with the `&mut self` tagged `self`: the slice they
return, and where it is. -/
def indexMutOn (self : Tag) (i : IdxU8) : M (Mem R N) ε (Tag × Nat × Nat) := do
  let (u, n) ← asMutStr self
  match i.toUsize.resolve n with
  | none => M.lift .panic
  | some (x, y) => do
    let ok ← boundaryAt u 0 n x
    let ok' ← boundaryAt u 0 n y
    M.lift (if x ≤ y ∧ ok ∧ ok' then .ok () else .panic)
    let v ← throughRaw u 0 n x y
    pure (v, x, y)

/-- An edit of a slice. -/
def editSlice (caller : Tag) (i : IdxU8) (edit : Bytes → Bytes) : M (Mem R N) ε Unit := do
  let (v, x, y) ← callMut caller fun self => indexMutOn self i
  let v ← retagUnique v x y false
  rewrite v x (y - x) edit

/-- drain.rs:105-108 `next` and 115-118 `next_back`, following a list of ends. -/
def drainEnds (d : Tag) : List End → M (Mem R N) ε (List (Option Char))
  | [] => pure []
  | .front :: es => do
    let r ← M.attempt (callMut d fun d => callMut d fun s => remove s 0)
    let os ← drainEnds d es
    match r with
    | .ok c => pure (some c :: os)
    | .error _ => pure (none :: os)
  | .back :: es => do
    let o ← callMut d fun d => callMut d fun s => pop s
    let os ← drainEnds d es
    pure (o :: os)

/-! ## Calls -/

/-- Observe the outcome of a method. -/
def call [Kind ε] (m : M (Mem R N) ε α) (out : α → Out) : M (Mem R N) Failure Out := do
  let a ← M.mapErr Kind.kind m
  pure (out a)

/-- Call a method with `&mut self`. -/
def method [Kind ε] (caller : Tag) (m : Tag → M (Mem R N) ε α) (out : α → Out) : M (Mem R N) Failure Out :=
  call (callMut caller m) out

/-- `*caller = make` -/
def construct [Kind ε] (caller : Tag) (make : M (Mem R N) ε (ArrayString N)) : M (Mem R N) Failure Out := do
  let s ← M.mapErr Kind.kind make
  storeString caller s
  pure .unit

/-- The text is at the place of the argument. -/
def given (w : List Char) (m : Nat → M (Mem R N) ε α) : M (Mem R N) ε α := do
  place (utf8 w)
  m (utf8 w).length

/-- Perform one call. -/
def exec (caller arg : Tag) (op : Op) : M (Mem R N) Failure Out :=
  match op with
  | .new | .default => construct (ε := Error) caller do
      let r ← withNew 0 0 fun _ => pure ()
      pure r.2
  | .tryFromStr w | .parse w => given w fun k => construct caller (tryFromStr arg (N + 1) (N + 1 + k))
  | .fromStrTruncate w | .from_ w => given w fun k => construct (ε := Error) caller (fromStrTruncate arg k)
  | .tryFromIterator ws => construct caller (tryFromIterator arg (ws.map (Option.map utf8)))
  | .fromIteratorTruncate ws => construct (ε := Error) caller
      (fromIteratorTruncate arg (ws.map (Option.map fun p => ⟨utf8 p.1, utf8 p.2⟩)))
  | .collectStrs ws => construct (ε := Error) caller
      (fromIteratorTruncate arg (ws.map (Option.map fun w => ⟨utf8 w, utf8 w⟩)))
  | .tryFromChars w => construct caller (tryFromChars w)
  | .fromCharsTruncate w | .collectChars w => construct (ε := Error) caller (fromCharsTruncate w)
  | .tryFromUtf16 l => construct caller (tryFromUtf16 l)
  | .fromUtf16Truncate l => construct caller (fromUtf16Truncate l)
  | .fromUtf16LossyTruncate l => construct (ε := Error) caller (fromUtf16LossyTruncate l)
  | .tryPushStr w => given w fun k => method caller (fun self => tryPushStr self arg k) fun _ => .unit
  | .pushStrTruncate w => given w fun k =>
    method (ε := Error) caller (fun self => pushStrTruncate self arg k) fun _ => .unit
  | .tryPush c => method caller (fun self => tryPush self c) fun _ => .unit
  | .truncate n => method caller (fun self => truncate self n) fun _ => .unit
  | .pop => method (ε := Error) caller pop .optChar
  | .trim => method (ε := Error) caller trim fun _ => .unit
  | .remove i => method caller (fun self => remove self i) .char
  | .retain f => method (ε := Error) caller (fun self => retain self (logged f) []) fun _ => .unit
  | .tryInsert i c => method caller (fun self => tryInsert self i c) fun _ => .unit
  | .tryInsertStr i w => given w fun k => method caller (fun self => tryInsertStr self arg i k) fun _ => .unit
  | .insertStrTruncate i w => given w fun k =>
    method caller (fun self => insertStrTruncate self arg i k) fun _ => .unit
  | .clear => method (ε := Error) caller clear fun _ => .unit
  | .drain r es => call (do
      let d ← callMut caller fun self => drain self r
      let (os, _) ← withLocal d.inner 0 0 fun d => do
        let os ← drainEnds d es
        let b ← look d
        pure (os, b)
      pure os) fun p => .drained p.1 p.2
  | .splitOff i => call (do
      let t ← callMut caller fun self => splitOff self i
      let (b, _) ← withLocal t 0 0 look
      pure b) .str
  | .replaceRange r w => given w fun k => method caller (fun self => replaceRangeOn self arg r k) fun _ => .unit
  | .extendChars w => method (ε := Error) caller (fun self => extend self (fromCharsTruncate w)) fun _ => .unit
  | .extendStrs ws => method (ε := Error) caller (fun self => extend self
      (fromIteratorTruncate arg (ws.map (Option.map fun w => ⟨utf8 w, utf8 w⟩)))) fun _ => .unit
  | .add w => given w fun k => construct (ε := Error) caller (add caller arg k)
  | .writeStr w => given w fun k => method caller (fun self => writeStr self arg k) fun _ => .unit
  | .writeFmt ws => method caller (fun self => callMut self fun self => writeAll self arg (ws.map utf8))
      fun _ => .unit
  | .index i => call (ε := Error) (index caller i) .str
  | .indexMut i e => call (ε := Error) (editSlice caller i e.onBytes) fun _ => .unit
  | .asMutStr e => call (ε := Error) (editText caller e.onBytes) fun _ => .unit
  | .asStr => call (ε := Error) (look caller) .str
  | .asBytes => call (ε := Error) (do
      let (a, n) ← asRefBytes caller
      load a 0 n) .str
  | .display => call (ε := FmtError) (do
      let b ← reading caller
      M.lift do
        let ((), out) ← (Fmt.write collect [.arg {} (fun o => Fmt.pad collect o b)]).onLocal []
        pure out) .str
  | .len => call (ε := Error) (len caller) .nat
  | .isEmpty => call (ε := Error) (do
      let (_, n) ← asRefStr caller
      pure (n == 0)) .bool
  | .capacity => call (ε := Error) (pure (ArrayString.capacity N)) .nat
  | .eqStr w => given w fun k => call (ε := Error) (do
      passShared arg (N + 1) (N + 1 + k) fun other => do
        let a ← reading caller
        let b ← load other (N + 1) k
        pure (Str.eq a b)) .bool
  | .hash => call (ε := Error) (do
      let b ← reading caller
      pure (Str.hash traceHasher b [])) .str

/-- The text that the caller gives before the call, for the calls that take one. -/
def oneText : Op → Option (List Char)
  | .tryFromStr w | .parse w | .fromStrTruncate w | .from_ w | .tryPushStr w | .pushStrTruncate w
  | .tryInsertStr _ w | .insertStrTruncate _ w | .replaceRange _ w | .add w | .writeStr w | .eqStr w => some w
  | _ => none

/-- Perform the calls one after the other, all through the same references. -/
def runOps (caller arg : Tag) : List Op → Mem R N → List (Res Failure Out) × Mem R N
  | [], m => ([], m)
  | op :: ops, m =>
    let (r, m) := exec caller arg op m
    let (rs, m) := runOps caller arg ops m
    (r :: rs, m)

end Verif.Machine
