import Verif.Model.Machine
import Verif.Model.CoreStr

/-!
# Characters one byte at a time

`Model/Machine` has `pop`, `trim` and `remove`, and with them the iterator of `drain`, load the whole text and
then look for the characters in what was loaded; `retain` loads a character at a time.  Here they are again as the
iterators of `core` do it: `next` and
`next_back` of `Chars` load one byte after the other, and which byte they load next, and whether they load one at
all, depends on those before.  Each byte is loaded through the `&u8` that the iterator over the bytes has made.
-/

namespace Verif.Machine
open Spec
open Borrow (Rules Tag emptyLit)

/-- A computation that asks for bytes at places of its choice. -/
inductive Scan (α : Type) where
  | done (a : α)
  | ub
  | byte (l : Nat) (k : UInt8 → Scan α)

namespace Scan
variable {α β : Type}

def bind : Scan α → (α → Scan β) → Scan β
  | .done a, f => f a
  | .ub, _ => .ub
  | .byte l k, f => .byte l fun x => bind (k x) f

instance : Monad Scan where
  pure := .done
  bind := bind

/-- Where a computation asks for bytes, in order, when the bytes are `g`. -/
def asked (g : Nat → UInt8) : Scan α → List Nat
  | .done _ => []
  | .ub => []
  | .byte l k => l :: asked g (k (g l))

/-- The byte at `l`. -/
def load (l : Nat) : Scan UInt8 := .byte l .done

/-! Not code of the repository; as in `Model/CoreStr` the files cited are those of `library/core/src`.  The iterator
over the bytes is at `lo .. hi`; what is returned with the answer is the end that has moved. -/

/-- slice/iter.rs `bytes.next().unwrap_unchecked()`. -/
def nextUnchecked (lo hi : Nat) : Scan (UInt8 × Nat) :=
  if lo < hi then do
    let x ← load lo
    pure (x, lo + 1)
  else .ub

/-- slice/iter.rs `bytes.next_back().unwrap_unchecked()`. -/
def nextBackUnchecked (lo hi : Nat) : Scan (UInt8 × Nat) :=
  if lo < hi then do
    let x ← load (hi - 1)
    pure (x, hi - 1)
  else .ub

/-- str/validations.rs `next_code_point`. -/
def nextCodePoint (lo hi : Nat) : Scan (Option UInt32 × Nat) :=
  if lo < hi then do
    let x ← load lo
    if x < 128 then pure (some x.toUInt32, lo + 1)
    else do
      let init := Core.utf8FirstByte x 2
      let (y, lo) ← nextUnchecked (lo + 1) hi
      if x >= 0xE0 then do
        let (z, lo) ← nextUnchecked lo hi
        let yz := Core.utf8AccContByte (y &&& Core.contMask).toUInt32 z
        if x >= 0xF0 then do
          let (w, lo) ← nextUnchecked lo hi
          pure (some ((init &&& 7) <<< 18 ||| Core.utf8AccContByte yz w), lo)
        else pure (some (init <<< 12 ||| yz), lo)
      else pure (some (Core.utf8AccContByte init y), lo)
  else pure (none, lo)

/-- str/validations.rs `next_code_point_reverse`. -/
def nextCodePointReverse (lo hi : Nat) : Scan (Option UInt32 × Nat) :=
  if lo < hi then do
    let w ← load (hi - 1)
    if w < 128 then pure (some w.toUInt32, hi - 1)
    else do
      let (z, hi) ← nextBackUnchecked lo (hi - 1)
      if Core.utf8IsContByte z then do
        let (y, hi) ← nextBackUnchecked lo hi
        if Core.utf8IsContByte y then do
          let (x, hi) ← nextBackUnchecked lo hi
          let ch := Core.utf8AccContByte (Core.utf8FirstByte x 4) y
          pure (some (Core.utf8AccContByte (Core.utf8AccContByte ch z) w), hi)
        else pure (some (Core.utf8AccContByte (Core.utf8AccContByte (Core.utf8FirstByte y 3) z) w), hi)
      else pure (some (Core.utf8AccContByte (Core.utf8FirstByte z 2) w), hi)
  else pure (none, hi)

/-- char/convert.rs `from_u32_unchecked`. -/
def toChar (p : Option UInt32 × Nat) : Scan (Option Char × Nat) :=
  match p with
  | (none, i) => pure (none, i)
  | (some v, i) => if h : v.isValidChar then pure (some ⟨v, h⟩, i) else .ub

/-- str/iter.rs `Chars::next`. -/
def next (lo hi : Nat) : Scan (Option Char × Nat) := nextCodePoint lo hi >>= toChar

/-- str/iter.rs `Chars::next_back`. -/
def nextBack (lo hi : Nat) : Scan (Option Char × Nat) := nextCodePointReverse lo hi >>= toChar

/-- str/iter.rs `Chars::last`, which is `next_back`. -/
def last (lo hi : Nat) : Scan (Option Char) := do
  let (o, _) ← nextBack lo hi
  pure o

/-- arraystring.rs:519-525: the first loop of `trim`, on a text of `n` bytes; `start` is its initial value, `fuel`
bounds the number of characters.  The position that `CharIndices::next` gives is where `Chars` was. -/
def trimStart (start n : Nat) : Nat → Nat → Scan Nat
  | 0, lo => if lo < n then .ub else pure start
  | fuel + 1, lo => do
    let (o, lo') ← next lo n
    match o with
    | none => pure start
    | some c => if ¬ Str.isWhitespace c then pure lo else trimStart start n fuel lo'

/-- arraystring.rs:526-536: the second loop of `trim`.  The position that `CharIndices::next_back` gives is where
`Chars` now ends.  `none` is the early return. -/
def trimEnd (start : Nat) : Nat → Nat → Nat → Scan (Option Nat)
  | 0, stop, hi => if 0 < hi then .ub else pure (some stop)
  | fuel + 1, stop, hi => do
    let (o, hi') ← nextBack 0 hi
    match o with
    | none => pure (some stop)
    | some c =>
      if hi' < start then pure none
      else if ¬ Str.isWhitespace c then pure (some stop)
      else trimEnd start fuel hi' hi'

end Scan

variable {R : Rules} {N : Nat} {ε α : Type}

/-- Load the bytes asked for, each through a `&u8` made from `t`. -/
def scan (t : Tag) : Scan α → M (Mem R N) ε α
  | .done a => pure a
  | .ub => M.lift .ub
  | .byte l k => do
    let p ← retagShared t l (l + 1) false
    let x ← loadByte p l
    scan t (k x)

namespace Chars

/-- `self.as_str().chars()` and `self.as_str().char_indices()`: an iterator over the text, and its length. -/
def chars (self : Tag) : M (Mem R N) ε (Tag × Nat) := do
  let (a, n) ← asStr self
  let a ← through a 0 n 0 n
  pure (a, n)

/-- arraystring.rs:489-497 `pop`. -/
def pop (self : Tag) : M (Mem R N) ε (Option Char) := do
  let (a, n) ← chars self
  let last ← scan a (Scan.last 0 n)
  let c ← retagUnique self N (N + 1) false
  passUnique c N (N + 1) fun c =>
    match last with
    | none => pure none
    | some ch => passUnique c N (N + 1) fun c => do
      let size ← loadByte c N
      let size ← M.lift (subU8 size (intoLossy (Str.lenUtf8 ch)))
      setSize c size
      pure (some ch)

/-- arraystring.rs:515-540 `trim`. -/
def trim (self : Tag) : M (Mem R N) ε Unit := do
  let start ← len self
  let (a, n) ← chars self
  let start ← scan a (Scan.trimStart start n n 0)
  let stop ← len self
  let (a, n) ← chars self
  let stop ← scan a (Scan.trimEnd start n stop n)
  match stop with
  | none => setSize self 0
  | some stop => do
    let _ ← M.attempt (callMut self fun self => replaceRangeOn self emptyLit (.from_ stop) 0)
    let _ ← M.attempt (callMut self fun self => replaceRangeOn self emptyLit (.to start) 0)
    pure ()

/-- arraystring.rs:571-574 `self.as_str().get(idx..end)`, then `chars().next()` on it. -/
def first (self : Tag) (idx stop : Nat) : M (Mem R N) ε (Option (Option Char)) := do
  let (a, n) ← asStr self
  let ok ← (if idx ≤ stop then boundaryAt a 0 n idx else pure false)
  let ok ← (if ok then boundaryAt a 0 n stop else pure false)
  if ok then do
    let a ← through a 0 n idx stop
    let a ← through a idx stop idx stop
    let (o, _) ← scan a (Scan.next idx stop)
    pure (some o)
  else pure none

/-- arraystring.rs:559-580 `remove`. -/
def remove (self : Tag) (idx : Nat) : M (Mem R N) Error Char := do
  let n ← len self
  M.try_ (isInsideBoundary (saturatingAdd idx 1) n)
  M.tryM (isCharBoundary self idx)
  let n ← len self
  let stop ← M.lift (if idx = n then .ok idx else addUsize idx 1)
  let stop ← removeScan self stop
  match ← first self idx stop with
  | none => M.lift (.err .outOfBounds)
  | some none => M.lift (.err .utf8)
  | some (some ch) => do
    let stop ← M.lift (addUsize idx (Str.lenUtf8 ch))
    callMut self fun self => replaceRangeOn self emptyLit (.range idx stop) 0
    pure ch

/-- arraystring.rs:215-219, the loop of `from_chars_truncate`, as `retain` uses it: `Chars` over the text up to `hi`,
filtered.  `fuel` bounds the number of characters. -/
def retainLoop {φ : Type} (t out : Tag) (f : ArrayString.Pred φ) (hi : Nat) : Nat → φ → Nat → M (Mem R N) ε φ
  | 0, q, lo => if lo < hi then M.lift .diverge else pure q
  | fuel + 1, q, lo => do
    let (o, lo) ← scan t (Scan.next lo hi)
    match o with
    | none => pure q
    | some c =>
      match f q c with
      | none => M.lift .panic
      | some (false, q) => retainLoop t out f hi fuel q lo
      | some (true, q) => do
        let r ← M.attempt (callMut out fun out => tryPush out c)
        match r with
        | .ok () => retainLoop t out f hi fuel q lo
        | .error _ => pure q

/-- arraystring.rs:599: the new text; the new string stands in for this one while its text is read behind it. -/
def retained {φ : Type} (self : Tag) (f : ArrayString.Pred φ) (q : φ) : M (Mem R N) ε (φ × ArrayString N) := do
  let (a, n) ← chars self
  withNew 0 n fun out => retainLoop a out f (N + 1 + n) n q (N + 1)

/-- arraystring.rs:594-600 `retain`. -/
def retain {φ : Type} (self : Tag) (f : ArrayString.Pred φ) (q : φ) : M (Mem R N) ε φ := do
  let (q, out) ← retained self f q
  storeString self out
  pure q

/-- drain.rs:105-108 `next` and 115-118 `next_back`, following a list of ends. -/
def drainEnds (d : Tag) : List End → M (Mem R N) ε (List (Option Char))
  | [] => pure []
  | .front :: es => do
    let r ← M.attempt (callMut d fun d => callMut d fun s => remove s 0)
    let os ← drainEnds d es
    match r with
    | .ok c => pure (some c :: os)
    | .error _ => pure (none :: os)
  | .back :: es => do
    let o ← callMut d fun d => callMut d fun s => pop s
    let os ← drainEnds d es
    pure (o :: os)

/-- Perform one call: these as above, the others as in `Model/Machine`. -/
def exec (caller arg : Tag) (op : Op) : M (Mem R N) Failure Out :=
  match op with
  | .pop => method (ε := Error) caller pop .optChar
  | .trim => method (ε := Error) caller trim fun _ => .unit
  | .remove i => method caller (fun self => remove self i) .char
  | .retain f => method (ε := Error) caller (fun self => retain self (logged f) []) fun _ => .unit
  | .drain r es => call (do
      let d ← callMut caller fun self => drain self r
      let (os, _) ← withLocal d.inner 0 0 fun d => do
        let os ← drainEnds d es
        let b ← look d
        pure (os, b)
      pure os) fun p => .drained p.1 p.2
  | _ => Machine.exec caller arg op

/-- Perform the calls one after the other, all through the same references. -/
def runOps (caller arg : Tag) : List Op → Mem R N → List (Res Failure Out) × Mem R N
  | [], m => ([], m)
  | op :: ops, m =>
    let (r, m) := exec caller arg op m
    let (rs, m) := runOps caller arg ops m
    (r :: rs, m)

end Chars

end Verif.Machine
