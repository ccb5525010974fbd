import Verif.Model.History

/-!
# The aliasing rules

`replace_range` moves bytes through a raw pointer while it keeps calling methods on `self`, and
`as_mut` hands out a reference made by `from_utf8_unchecked_mut`.  Whether that is allowed is decided
by Rust's aliasing rules, of which two precise proposals exist: Stacked Borrows and Tree Borrows.

This file models both proposals (they are not files of the repository), and then the two functions
again with every reference they create, pass, use and give up made explicit.  The bytes are still
computed by the functions of `Model/ArrayString.lean`; the rules only say whether the access is
allowed.
-/

namespace Verif.Borrow

/-- Every reference that is made gets a new tag. -/
abbrev Tag := Nat

/-- A set of aliasing rules: what is remembered for each byte of memory, and what happens to it.
`none` is undefined behaviour. -/
structure Rules where
  St : Type
  /-- A byte that is not there. -/
  empty : St
  /-- A byte of a new variable, whose tag is given. -/
  alloc : Tag → St
  /-- The byte is read through the tag. -/
  read : Tag → St → Option St
  /-- The byte is written through the tag. -/
  write : Tag → St → Option St
  /-- `&mut *parent`; `protect` for an argument of a function, until the function returns. -/
  unique : (parent new : Tag) → (protect : Bool) → St → Option St
  /-- `&*parent` -/
  shared : (parent new : Tag) → (protect : Bool) → St → Option St
  /-- The `&mut *parent` of a method call `parent.method(arguments)`, made before the arguments are
  evaluated (a two-phase borrow). -/
  twoPhase : (parent new : Tag) → St → Option St
  /-- `parent as *mut _`, where `parent` is a `&mut` -/
  rawMut : (parent new : Tag) → St → Option St
  /-- The tag a raw pointer gets. -/
  rawTag : (parent new : Tag) → Tag
  /-- The function that got the reference as an argument returns. -/
  release : Tag → St → Option St

/-! ## Stacked Borrows -/

namespace Stacked

inductive Perm where
  | unique | sharedRW | sharedRO | disabled
deriving DecidableEq, Repr

structure Item where
  tag : Tag
  perm : Perm
  protect : Bool
deriving DecidableEq, Repr

/-- May a read use the item? -/
def Item.reads (i : Item) (t : Tag) : Bool := i.tag == t && i.perm != .disabled

/-- May a write use the item? -/
def Item.writes (i : Item) (t : Tag) : Bool :=
  i.tag == t && (i.perm == .unique || i.perm == .sharedRW)

/-- Read through the topmost item that allows it; every `unique` above is disabled.  The head of the
list is the top of the stack. -/
def read (t : Tag) : List Item → Option (List Item)
  | [] => none
  | i :: st =>
    if i.reads t then some (i :: st)
    else if i.perm = .unique then
      if i.protect then none else (read t st).map ({ i with perm := .disabled } :: ·)
    else (read t st).map (i :: ·)

/-- Write through the topmost item that allows it; the items above are removed, except for
`sharedRW` items directly above an item that is `sharedRW` itself (the flag says whether the block of
such items still goes on).  A protected item must not be removed. -/
def writeUp (t : Tag) : List Item → Option (List Item × Bool)
  | [] => none
  | i :: st =>
    if i.writes t then some (i :: st, i.perm == .sharedRW)
    else do
      let (st, goesOn) ← writeUp t st
      if goesOn && i.perm == .sharedRW then some (i :: st, true)
      else if i.protect then none
      else some (st, false)

def write (t : Tag) (st : List Item) : Option (List Item) := (writeUp t st).map (·.1)

/-- A raw pointer goes directly above the item it was made from (above the block of `sharedRW` items,
if that item is `sharedRW` itself; the flag says that its place is not reached yet), and removes
nothing. -/
def rawUp (t new : Tag) : List Item → Option (List Item × Bool)
  | [] => none
  | i :: st =>
    if i.writes t then
      if i.perm = .sharedRW then some (i :: st, true)
      else some (⟨new, .sharedRW, false⟩ :: i :: st, false)
    else do
      let (st, goesOn) ← rawUp t new st
      if goesOn then
        if i.perm = .sharedRW then some (i :: st, true)
        else some (i :: ⟨new, .sharedRW, false⟩ :: st, false)
      else some (i :: st, false)

def rawMut (t new : Tag) (st : List Item) : Option (List Item) :=
  (rawUp t new st).map fun (st, goesOn) => if goesOn then ⟨new, .sharedRW, false⟩ :: st else st

/-- Stacked Borrows.  `&mut` needs a write, `&` a read; two-phase borrows are treated as raw
pointers. -/
def rules : Rules where
  St := List Item
  empty := []
  alloc t := [⟨t, .unique, false⟩]
  read := read
  write := write
  unique t new p st := (write t st).map (⟨new, .unique, p⟩ :: ·)
  shared t new p st := (read t st).map (⟨new, .sharedRO, p⟩ :: ·)
  twoPhase := rawMut
  rawMut := rawMut
  rawTag _ new := new
  release t st := some (st.map fun i => if i.tag = t then { i with protect := false } else i)

end Stacked

/-! ## Tree Borrows -/

namespace Tree

inductive Perm where
  /-- Not written through yet; `conflicted` after somebody else's read while protected. -/
  | reserved (conflicted : Bool)
  | active | frozen | disabled
deriving DecidableEq, Repr

structure Node where
  tag : Tag
  parent : Tag
  perm : Perm
  protect : Bool
deriving DecidableEq, Repr

/-- A read through the node or something made from it. -/
def childRead : Perm → Option Perm
  | .disabled => none
  | p => some p

/-- A write through the node or something made from it. -/
def childWrite (protect : Bool) : Perm → Option Perm
  | .reserved conflicted => if conflicted && protect then none else some .active
  | .active => some .active
  | .frozen | .disabled => none

/-- A read through any other node. -/
def foreignRead (protect : Bool) : Perm → Option Perm
  | .reserved conflicted => some (.reserved (conflicted || protect))
  | .active => if protect then none else some .frozen
  | .frozen => some .frozen
  | .disabled => some .disabled

/-- A write through any other node. -/
def foreignWrite (protect : Bool) : Perm → Option Perm
  | .disabled => some .disabled
  | _ => if protect then none else some .disabled

/-- Access the byte through `t`.  The list holds the nodes, newest first, so that the parent of a
node comes after it. -/
def access (write : Bool) (t : Tag) : List Node → Option (List Node)
  | [] => some []
  | x :: st =>
    if x.tag = t then do
      let p ← if write then childWrite x.protect x.perm else childRead x.perm
      let st ← access write x.parent st
      some ({ x with perm := p } :: st)
    else do
      let p ← if write then foreignWrite x.protect x.perm else foreignRead x.protect x.perm
      let st ← access write t st
      some ({ x with perm := p } :: st)

def has (t : Tag) (st : List Node) : Bool := st.any (·.tag == t)

def read (t : Tag) (st : List Node) : Option (List Node) :=
  if has t st then access false t st else none

def write (t : Tag) (st : List Node) : Option (List Node) :=
  if has t st then access true t st else none

def unprotect (t : Tag) (st : List Node) : List Node :=
  st.map fun x => if x.tag = t then { x with protect := false } else x

/-- The end of a protector counts as one more access through the tag: a write if it was written
through, a read otherwise. -/
def release (t : Tag) (st : List Node) : Option (List Node) := do
  let st ← match st.find? (·.tag == t) with
    | none => some st
    | some x =>
      if x.protect then
        match x.perm with
        | .active => write t st
        | .disabled => some st
        | _ => read t st
      else some st
  some (unprotect t st)

/-- Tree Borrows.  Making a reference is a read; raw pointers share the tag of the reference they are
made from. -/
def rules : Rules where
  St := List Node
  empty := []
  alloc t := [⟨t, t, .active, false⟩]
  read := read
  write := write
  unique t new p st := (read t st).map (⟨new, t, .reserved false, p⟩ :: ·)
  shared t new p st := (read t st).map (⟨new, t, .frozen, p⟩ :: ·)
  twoPhase t new st := (read t st).map (⟨new, t, .reserved false, false⟩ :: ·)
  rawMut t _ st := if has t st then some st else none
  rawTag t _ := t
  release := release

end Tree

/-! ## Memory with tags -/

/-- The string, and what the rules remember about each byte.  Addresses `0 .. N` are the `array`
field, `N` is the `size` field, `N + 1 ..` the bytes of the text passed as an argument. -/
structure World (R : Rules) (N : Nat) where
  str : ArrayString N
  mem : Nat → R.St
  next : Tag

variable {R : Rules} {N : Nat} {ε : Type}

/-- Apply a rule to the bytes `lo .. hi`. -/
def touch (lo hi : Nat) (f : R.St → Option R.St) : M (World R N) ε Unit := fun w =>
  if (List.range' lo (hi - lo)).all (fun l => (f (w.mem l)).isSome) then
    (.ok (), { w with mem := fun l =>
      let st := w.mem l
      if lo ≤ l ∧ l < hi then (f st).getD st else st })
  else (.ub, w)

def fresh : M (World R N) ε Tag := fun w => (.ok w.next, { w with next := w.next + 1 })

/-- `&*t` -/
def retagShared (t : Tag) (lo hi : Nat) (protect : Bool) : M (World R N) ε Tag := do
  let u ← fresh
  touch lo hi (R.shared t u protect)
  pure u

/-- `&mut *t` -/
def retagUnique (t : Tag) (lo hi : Nat) (protect : Bool) : M (World R N) ε Tag := do
  let u ← fresh
  touch lo hi (R.unique t u protect)
  pure u

def release (t : Tag) (lo hi : Nat) : M (World R N) ε Unit := touch lo hi (R.release t)

def readAt (t : Tag) (lo hi : Nat) : M (World R N) ε Unit := touch lo hi (R.read t)

def writeAt (t : Tag) (lo hi : Nat) : M (World R N) ε Unit := touch lo hi (R.write t)

/-- The string itself. -/
def get : M (World R N) ε (ArrayString N) := fun w => (.ok w.str, w)

def put (s : ArrayString N) : M (World R N) ε Unit := fun w => (.ok (), { w with str := s })

/-- Run a function whose argument `t` is protected; the protector ends when the function returns or
panics. -/
def protecting {α : Type} (t : Tag) (lo hi : Nat) (body : M (World R N) ε α) : M (World R N) ε α := fun w =>
  match body w with
  | (.ub, w) => (.ub, w)
  | (.diverge, w) => (.diverge, w)
  | (r, w) =>
    match (release t lo hi : M (World R N) Empty Unit) w with
    | (.ok (), w) => (r, w)
    | (_, w) => (.ub, w)

/-- Pass a `&` to a function. -/
def passShared {α : Type} (t : Tag) (lo hi : Nat) (body : Tag → M (World R N) ε α) :
    M (World R N) ε α := do
  let u ← retagShared t lo hi true
  protecting u lo hi (body u)

/-- Pass a `&mut` to a function. -/
def passUnique {α : Type} (t : Tag) (lo hi : Nat) (body : Tag → M (World R N) ε α) :
    M (World R N) ε α := do
  let u ← retagUnique t lo hi true
  protecting u lo hi (body u)

/-- Pass a `&` through a function that gives back a `&` to the part `lo' .. hi'` of it.  What a function
gives back is retagged by its caller. -/
def through (t : Tag) (lo hi lo' hi' : Nat) : M (World R N) ε Tag := do
  let v ← passShared t lo hi fun u => retagShared u lo' hi' false
  retagShared v lo' hi' false

/-- Pass a `&mut` through a function that gives back a `&mut` to the part `lo' .. hi'` of it. -/
def throughMut (t : Tag) (lo hi lo' hi' : Nat) : M (World R N) ε Tag := do
  let u ← retagUnique t lo hi true
  let v ← retagUnique u lo' hi' false
  release u lo hi
  retagUnique v lo' hi' false

/-- The same through a function that turns its argument into a raw pointer and makes the `&mut` it
gives back from that. -/
def throughRaw (t : Tag) (lo hi lo' hi' : Nat) : M (World R N) ε Tag := do
  let u ← retagUnique t lo hi true
  let p ← fresh
  touch lo hi (R.rawMut u p)
  let v ← retagUnique (R.rawTag u p) lo' hi' false
  release u lo hi
  retagUnique v lo' hi' false

/-- Call a function with `&self`, of type `&ArrayString<N>`, as its argument. -/
def callShared {α : Type} (self : Tag) (body : Tag → M (World R N) ε α) : M (World R N) ε α := do
  let t ← retagShared self 0 (N + 1) false
  passShared t 0 (N + 1) body

/-- The same for a function that gives back a reference to the text, and its length. -/
def callRef (self : Tag) (body : Tag → M (World R N) ε (Tag × Nat)) : M (World R N) ε (Tag × Nat) := do
  let (a, n) ← callShared self body
  let a ← retagShared a 0 n false
  pure (a, n)

/-- Call a function with a `&mut ArrayString<N>` that gives back a `&mut` to the text, and its length. -/
def passRef (t : Tag) (body : Tag → M (World R N) ε (Tag × Nat)) : M (World R N) ε (Tag × Nat) := do
  let (a, n) ← passUnique t 0 (N + 1) body
  let a ← retagUnique a 0 n false
  pure (a, n)

/-! ## The functions that only read -/

/-- arraystring.rs:719-724 `len`. -/
def len (self : Tag) : M (World R N) ε Nat := callShared self fun self => do
  readAt self N (N + 1)
  let s ← get
  pure s.len

/-- implementations.rs:57-68 `AsRef<[u8]>::as_ref`: the reference to the text, and its length. -/
def asRefBytes (self : Tag) : M (World R N) ε (Tag × Nat) := callRef self fun self => do
  let _ ← len self
  let a ← retagShared self 0 N false
  let a ← through a 0 N 0 N
  let n ← len self
  let a ← through a 0 N 0 n
  pure (a, n)

/-- implementations.rs:23-36 `AsRef<str>::as_ref`; `from_utf8` of the debug assertion reads it all. -/
def asRefStr (self : Tag) : M (World R N) ε (Tag × Nat) := callRef self fun self => do
  let (a, n) ← asRefBytes self
  readAt a 0 n
  let (a, n) ← asRefBytes self
  let a ← through a 0 n 0 n
  pure (a, n)

/-- arraystring.rs:336-341 `as_str`. -/
def asStr (self : Tag) : M (World R N) ε (Tag × Nat) := callRef self asRefStr

/-- `str::is_char_boundary` on the text at `lo .. lo + n` reads the byte at the index, except for
index 0. -/
def readBoundary (t : Tag) (lo n idx : Nat) : M (World R N) ε Unit :=
  passShared t lo (lo + n) fun t => if idx ≠ 0 ∧ idx < n then readAt t (lo + idx) (lo + idx + 1) else pure ()

/-- utils.rs:21-33 `is_char_boundary`. -/
def isCharBoundary (self : Tag) (idx : Nat) : M (World R N) Utf8 Unit := do
  callShared self fun self => do
    let (a, n) ← asStr self
    readBoundary a 0 n idx
  let s ← get
  M.lift (s.isCharBoundary idx)

/-! ## The functions that write -/

/-- `self.array.as_mut_ptr()` (arraystring.rs:875): `&mut self.array`, made a slice, passed to
`as_mut_ptr`, which turns it into a raw pointer. -/
def asMutPtr (self : Tag) : M (World R N) ε Tag := do
  let a ← retagUnique self 0 N false
  let a ← retagUnique a 0 N false
  let a ← retagUnique a 0 N true
  let p ← fresh
  touch 0 N (R.rawMut a p)
  release a 0 N
  pure (R.rawTag a p)

/-- arraystring.rs:883-885: `core::ptr::copy(cut_end, str_end, self.len() - end)`, unless there is
nothing to move. -/
def moveTail (self p : Tag) (stop cutEnd strEnd : Nat) : M (World R N) Error Unit :=
  if cutEnd ≠ strEnd then do
    let n ← len self
    let k ← M.lift (subUsize n stop)
    let s ← get
    let mem ← M.lift (memCopy s.array cutEnd strEnd k)
    readAt p cutEnd (cutEnd + k)
    writeAt p strEnd (strEnd + k)
    put ⟨mem, s.size⟩
  else pure ()

/-- arraystring.rs:886-888: `core::ptr::copy_nonoverlapping(str.as_ptr(), cut_start, str.len())`,
unless there is nothing to copy. -/
def copyText (text p : Tag) (cutStart : Nat) (str : Bytes) : M (World R N) Error Unit :=
  if ¬ str.isEmpty then do
    let q ← through text (N + 1) (N + 1 + str.length) (N + 1) (N + 1 + str.length)
    let s ← get
    let mem ← M.lift (memCopyFrom s.array str cutStart str.length)
    readAt q (N + 1) (N + 1 + str.length)
    writeAt p cutStart (cutStart + str.length)
    put ⟨mem, s.size⟩
  else pure ()

/-- arraystring.rs:851-855: `end`. -/
def rangeEnd (self : Tag) (r : RangeB) : M (World R N) ε Nat :=
  match r.stop with
  | .included t => pure (saturatingAdd t 1)
  | .excluded t => pure t
  | .unbounded => len self

/-- arraystring.rs:838-892 `replace_range`, the part after `let str = with.as_ref().as_bytes()`. -/
def replaceRangeBody (self text : Tag) (r : RangeB) (str : Bytes) : M (World R N) Error Unit := do
  let start := ArrayString.rangeStart r
  let stop ← rangeEnd self r
  if start = stop ∧ str.isEmpty then pure ()
  else do
    M.try_ (isInsideBoundary start stop)
    let n ← len self
    M.try_ (isInsideBoundary stop n)
    M.try_ (isInsideBoundary str.length (ArrayString.capacity N))
    M.tryM (isCharBoundary self start)
    M.tryM (isCharBoundary self stop)
    let n ← len self
    let a ← M.lift (addUsize n str.length)
    let b ← M.lift (addUsize a start)
    let total ← M.lift (subUsize b stop)
    M.try_ (isInsideBoundary total (ArrayString.capacity N))
    let p ← asMutPtr self
    let cutStart ← M.lift (ptrAdd N start)
    let cutEnd ← M.lift (ptrAdd N stop)
    let strEnd ← M.lift (ptrAdd N (cutStart + str.length))
    moveTail self p stop cutEnd strEnd
    copyText text p cutStart str
    let n ← len self
    let a ← M.lift (addUsize n str.length)
    let b ← M.lift (addUsize a start)
    let total ← M.lift (subUsize b stop)
    writeAt self N (N + 1)
    let s ← get
    put ⟨s.array, intoLossy total⟩

/-- arraystring.rs:838-892 `replace_range`, with its `&mut self` tagged `self`, called with a `&str`
tagged `arg`. -/
def replaceRangeOn (self arg : Tag) (r : RangeB) (str : Bytes) : M (World R N) Error Unit :=
  passShared arg (N + 1) (N + 1 + str.length) fun text => do
    let a ← through text (N + 1) (N + 1 + str.length) (N + 1) (N + 1 + str.length)
    let a ← through a (N + 1) (N + 1 + str.length) (N + 1) (N + 1 + str.length)
    replaceRangeBody self a r str

/-- arraystring.rs:838-892 `replace_range`, called with a `&mut ArrayString<N>` tagged `caller` and a
`&str` tagged `arg`. -/
def replaceRange (caller arg : Tag) (r : RangeB) (str : Bytes) : M (World R N) Error Unit :=
  passUnique caller 0 (N + 1) fun self => replaceRangeOn self arg r str

/-- implementations.rs:38-55 `AsMut<str>::as_mut`, with its `&mut self` tagged `self`: the `&mut str` it
returns, and its length.  As in the code, `slice` is read by `from_utf8` (debug assertion) and then
passed to `from_utf8_unchecked_mut`.  `as_mut_slice` returns its argument; `get_unchecked_mut` and
`from_utf8_unchecked_mut` go through a raw pointer. -/
def asMutOn (self : Tag) : M (World R N) ε (Tag × Nat) := do
  let n ← len self
  let a ← retagUnique self 0 N false
  let a ← throughMut a 0 N 0 N
  let slice ← throughRaw a 0 N 0 n
  let t ← retagShared slice 0 n false
  passShared t 0 n fun t => readAt t 0 n
  let u ← throughRaw slice 0 n 0 n
  pure (u, n)

/-- implementations.rs:38-55 `AsMut<str>::as_mut`, called with a `&mut ArrayString<N>` tagged `caller`. -/
def asMut (caller : Tag) : M (World R N) ε (Tag × Nat) := passRef caller asMutOn

/-- What a caller may do with the `&mut str` byte by byte (through unsafe functions such as
`as_bytes_mut`, or the safe ones of `str` that write). -/
inductive Access where
  | load (i : Nat)
  | store (i : Nat) (b : UInt8)

def Access.pos : Access → Nat
  | .load i => i
  | .store i _ => i

def Access.run (u : Tag) : Access → M (World R N) ε Unit
  | .load i => readAt u i (i + 1)
  | .store i b => do
    writeAt u i (i + 1)
    let s ← get
    put ⟨s.array.set i b, s.size⟩

def runAccesses (u : Tag) : List Access → M (World R N) ε Unit
  | [] => pure ()
  | a :: as => do
    a.run u
    runAccesses u as

/-- `as_str`, and a look at the text. -/
def look (caller : Tag) : M (World R N) ε Nat := do
  let (a, n) ← asStr caller
  readAt a 0 n
  pure n

/-! ## A program using one `&mut ArrayString<N>` -/

open Spec in
/-- The calls: `replace_range`; `as_mut_str` and an edit of the text; `as_str` and a look at the
text. -/
inductive Call where
  | replaceRange (r : RangeB) (t : List Char)
  | edit (e : Edit)
  | text

open Spec in
def Call.run (caller arg : Tag) : Call → M (World R N) Failure Out
  | .replaceRange r t => do
    M.mapErr Kind.kind (Borrow.replaceRange caller arg r (utf8 t))
    pure .unit
  | .edit e => do
    let (u, n) ← asMut caller
    readAt u 0 n
    writeAt u 0 n
    let s ← get
    put ⟨e.onBytes (s.array.take n) ++ s.array.drop n, s.size⟩
    pure .unit
  | .text => do
    let n ← look caller
    let s ← get
    pure (.str (s.array.take n))

open Spec in
/-- Perform the calls one after the other, all through the same reference. -/
def runCalls (caller arg : Tag) : List Call → World R N → List (Res Failure Out) × World R N
  | [], w => ([], w)
  | c :: cs, w =>
    let (r, w) := c.run caller arg w
    let (rs, w) := runCalls caller arg cs w
    (r :: rs, w)

end Verif.Borrow
