import Verif.Spec.Range
import Verif.Spec.Index
import Verif.Spec.Trim
import Verif.Spec.Utf16
import Verif.Spec.Retain
import Verif.Spec.Deque
import Verif.Spec.Order

/-!
# The abstract bounded string: calls, answers, and what each call does to a text

The state is just a text (`List Char`); `step N op cs` gives the answer of a call on a string of
capacity `N` holding `cs`, and the text afterwards.  Nothing here mentions buffers, sizes or
pointers; the argument types (`RangeB`, `IdxU8`) are those of the API.
-/

namespace Verif.Spec
open Verif

/-- Why a call failed. -/
inductive Failure where
  | outOfBounds
  | utf8
  | utf16
  | fmt
deriving DecidableEq, Repr

/-- What a successful call returns. -/
inductive Out where
  | unit
  | char (c : Char)
  | optChar (o : Option Char)
  | str (b : Bytes)
  | nat (n : Nat)
  | bool (b : Bool)
  | ordering (o : Ordering)
  | drained (answers : List (Option Char)) (rest : Bytes)
deriving DecidableEq, Repr

/-- How a call ends. -/
inductive Answer where
  | returned (o : Out)
  | failed (e : Failure)
  | panicked
deriving DecidableEq, Repr

/-- A finite iterator that may panic: `none` is a panic. -/
abbrev Script (α : Type) := List (Option α)

/-- An in-place edit of a `&mut str`: any change of the text that keeps its byte length. -/
structure Edit where
  apply : List Char → List Char
  keeps : ∀ cs, byteLen (apply cs) = byteLen cs

/-- The calls of the API on one string.  A constructor call replaces the string if it succeeds. -/
inductive Op where
  -- constructors
  | new
  | default
  | tryFromStr (w : List Char)
  | parse (w : List Char)
  | fromStrTruncate (w : List Char)
  | from_ (w : List Char)
  | tryFromIterator (ws : Script (List Char))
  | fromIteratorTruncate (ws : Script (List Char × List Char))
  | collectStrs (ws : Script (List Char))
  | tryFromChars (w : Script Char)
  | fromCharsTruncate (w : Script Char)
  | collectChars (w : Script Char)
  | tryFromUtf16 (l : List UInt16)
  | fromUtf16Truncate (l : List UInt16)
  | fromUtf16LossyTruncate (l : List UInt16)
  -- mutators
  | tryPushStr (w : List Char)
  | pushStrTruncate (w : List Char)
  | tryPush (c : Char)
  | truncate (n : Nat)
  | pop
  | trim
  | remove (i : Nat)
  | retain (f : List Char → Char → Option Bool)   -- may depend on the characters seen so far, may panic
  | tryInsert (i : Nat) (c : Char)
  | tryInsertStr (i : Nat) (w : List Char)
  | insertStrTruncate (i : Nat) (w : List Char)
  | clear
  | drain (r : RangeB) (es : List End)            -- then `next`/`next_back` as listed, then `as_str`
  | splitOff (i : Nat)
  | replaceRange (r : RangeB) (w : List Char)
  -- traits
  | extendChars (w : Script Char)
  | extendStrs (ws : Script (List Char))
  | add (w : List Char)
  | writeStr (w : List Char)
  | writeFmt (ws : List (List Char))              -- `write!`, as the texts written one by one
  | index (i : IdxU8)
  | indexMut (i : IdxU8) (e : Edit)
  | asMutStr (e : Edit)
  -- queries
  | asStr
  | asBytes
  | len
  | isEmpty
  | capacity
  | eqStr (w : List Char)
  | hash                                          -- what a hasher is fed
  | display                                       -- what `{}` prints

/-- Arguments of type `usize` are `usize` values (only needed for range bounds). -/
def Op.Ok : Op → Prop
  | .replaceRange r _ => RangeOk r
  | _ => True

/-! ## What the calls do -/

/-- Why gathering pieces stopped. -/
inductive Stop where
  | ended
  | over (second : List Char)   -- the next piece does not fit; `as_ref` called again answers `second`
  | panicked

/-- Gather pieces while they fit in `n` bytes (each with its first and its second `as_ref`). -/
def gather : Nat → Script (List Char × List Char) → List Char × Stop
  | _, [] => ([], .ended)
  | _, none :: _ => ([], .panicked)
  | n, some (w, w') :: l =>
    if byteLen w ≤ n then
      let (u, st) := gather (n - byteLen w) l
      (w ++ u, st)
    else ([], .over w')

/-- Pieces with a faithful `as_ref`. -/
def twice (l : Script (List Char)) : Script (List Char × List Char) := l.map (Option.map fun w => (w, w))
/-- Characters as pieces. -/
def single (l : Script Char) : Script (List Char × List Char) := l.map (Option.map fun c => ([c], [c]))

/-- Everything, or failure. -/
def gatherAll (n : Nat) (l : Script (List Char × List Char)) : Except Answer (List Char) :=
  match gather n l with
  | (w, .ended) => .ok w
  | (_, .over _) => .error (.failed .outOfBounds)
  | (_, .panicked) => .error .panicked

/-- As much as fits. -/
def gatherFit (n : Nat) (l : Script (List Char × List Char)) : Except Answer (List Char) :=
  match gather n l with
  | (w, .ended) => .ok w
  | (w, .over w') => .ok (w ++ takeFit (n - byteLen w) w')
  | (_, .panicked) => .error .panicked

/-- Cut a text at two byte positions. -/
def cut2 (cs : List Char) (a b : Nat) : Option (List Char × List Char × List Char) :=
  if a ≤ b then
    match cutAt cs b with
    | none => none
    | some (l, q) =>
      match cutAt l a with
      | none => none
      | some (p, m) => some (p, m, q)
  else none

/-- Decomposition of 16-bit units into characters and unpaired surrogates. -/
def segment : List UInt16 → List Seg
  | [] => []
  | [u] => if IsHigh u ∨ IsLow u then [.lone u] else [.chr (Char.ofNat u.toNat)]
  | u :: v :: l =>
    if IsHigh u then
      if IsLow v then .chr (Char.ofNat (0x10000 + (u.toNat - 0xD800) * 1024 + (v.toNat - 0xDC00))) :: segment l
      else .lone u :: segment (v :: l)
    else if IsLow u then .lone u :: segment (v :: l)
    else .chr (Char.ofNat u.toNat) :: segment (v :: l)

/-- No unpaired surrogate. -/
def allChars : List Seg → Bool
  | [] => true
  | .chr _ :: l => allChars l
  | .lone _ :: _ => false

/-- Write texts in turn, each entirely or not at all, until one does not fit. -/
def writeAll (n : Nat) : List (List Char) → List Char → Answer × List Char
  | [], cs => (.returned .unit, cs)
  | w :: ws, cs => if byteLen cs + byteLen w ≤ n then writeAll n ws (cs ++ w) else (.failed .fmt, cs)

/-- Insert `w` at byte `i`. -/
def insertAt (n : Nat) (i : Nat) (w cs : List Char) : Answer × List Char :=
  if byteLen cs < i then (.failed .outOfBounds, cs)
  else if w = [] then (.returned .unit, cs)
  else if n < byteLen w then (.failed .outOfBounds, cs)
  else match cutAt cs i with
    | none => (.failed .utf8, cs)
    | some (p, q) =>
      if byteLen cs + byteLen w ≤ n then (.returned .unit, p ++ w ++ q) else (.failed .outOfBounds, cs)

/-- Replace the text, or answer the failure. -/
def assign (cs : List Char) : Except Answer (List Char) → Answer × List Char
  | .ok w => (.returned .unit, w)
  | .error a => (a, cs)

/-- The predicate of `retain` as a function of the characters seen so far. -/
def logged (f : List Char → Char → Option Bool) : List Char → Char → Option (Bool × List Char) :=
  fun seen c => (f seen c).map fun b => (b, seen ++ [c])

/-- One call on a string of capacity `N` holding `cs`. -/
def step (N : Nat) (op : Op) (cs : List Char) : Answer × List Char :=
  let room := N - byteLen cs
  match op with
  | .new | .default => (.returned .unit, [])
  | .tryFromStr w | .parse w => if byteLen w ≤ N then (.returned .unit, w) else (.failed .outOfBounds, cs)
  | .fromStrTruncate w | .from_ w => (.returned .unit, takeFit N w)
  | .tryFromIterator ws => assign cs (gatherAll N (twice ws))
  | .fromIteratorTruncate ws => assign cs (gatherFit N ws)
  | .collectStrs ws => assign cs (gatherFit N (twice ws))
  | .tryFromChars w => assign cs (gatherAll N (single w))
  | .fromCharsTruncate w | .collectChars w => assign cs (gatherFit N (single w))
  | .tryFromUtf16 l =>
    if N < byteLen (leadingChars (segment l)) then (.failed .outOfBounds, cs)
    else if allChars (segment l) then (.returned .unit, leadingChars (segment l))
    else (.failed .utf16, cs)
  | .fromUtf16Truncate l =>
    if N < byteLen (leadingChars (segment l)) ∨ allChars (segment l) then
      (.returned .unit, takeFit N (leadingChars (segment l)))
    else (.failed .utf16, cs)
  | .fromUtf16LossyTruncate l => (.returned .unit, takeFit N ((segment l).map Seg.lossy))
  | .tryPushStr w => if byteLen w ≤ room then (.returned .unit, cs ++ w) else (.failed .outOfBounds, cs)
  | .pushStrTruncate w | .add w => (.returned .unit, cs ++ takeFit room w)
  | .tryPush c => if c.utf8Size ≤ room then (.returned .unit, cs ++ [c]) else (.failed .outOfBounds, cs)
  | .truncate n =>
    if byteLen cs ≤ n then (.returned .unit, cs)
    else match cutAt cs n with
      | some (p, _) => (.returned .unit, p)
      | none => (.failed .utf8, cs)
  | .pop => (.returned (.optChar cs.getLast?), cs.dropLast)
  | .trim => (.returned .unit, trimText cs)
  | .remove i =>
    if byteLen cs ≤ i then (.failed .outOfBounds, cs)
    else match cutAt cs i with
      | some (p, c :: q) => (.returned (.char c), p ++ q)
      | _ => (.failed .utf8, cs)
  | .retain f =>
    match keep (logged f) [] cs with
    | some (out, _) => (.returned .unit, out)
    | none => (.panicked, cs)
  | .tryInsert i c => insertAt N i [c] cs
  | .tryInsertStr i w => insertAt N i w cs
  | .insertStrTruncate i w => insertAt N i (takeFit room w) cs
  | .clear => (.returned .unit, [])
  | .drain r es =>
    let a := startOf r
    let b := endOf r (byteLen cs)
    if a ≤ b ∧ b ≤ byteLen cs then
      match cut2 cs a b with
      | some (p, m, q) =>
        (.returned (.drained (takeEnds es m).1 (utf8 (takeEnds es m).2)), p ++ q)
      | none => (.failed .utf8, cs)
    else (.failed .outOfBounds, cs)
  | .splitOff i =>
    if byteLen cs < i then (.failed .outOfBounds, cs)
    else match cutAt cs i with
      | some (p, q) => (.returned (.str (utf8 q)), p)
      | none => (.failed .utf8, cs)
  | .replaceRange r w =>
    let a := startOf r
    let b := endOf r (byteLen cs)
    if w = [] ∧ min a usizeMax = min b usizeMax then (.returned .unit, cs)
    else if ¬ (a ≤ b ∧ b ≤ byteLen cs) ∨ N < byteLen w then (.failed .outOfBounds, cs)
    else match cut2 cs a b with
      | none => (.failed .utf8, cs)
      | some (p, _, q) =>
        if byteLen (p ++ w ++ q) ≤ N then (.returned .unit, p ++ w ++ q) else (.failed .outOfBounds, cs)
  | .extendChars w =>
    match gatherFit N (single w) with
    | .ok w => (.returned .unit, cs ++ takeFit room w)
    | .error a => (a, cs)
  | .extendStrs ws =>
    match gatherFit N (twice ws) with
    | .ok w => (.returned .unit, cs ++ takeFit room w)
    | .error a => (a, cs)
  | .writeStr w => if byteLen w ≤ room then (.returned .unit, cs ++ w) else (.failed .fmt, cs)
  | .writeFmt ws => writeAll N ws cs
  | .index i =>
    match cut2 cs (idxRange (byteLen cs) i).1 (idxRange (byteLen cs) i).2 with
    | some (_, m, _) => (.returned (.str (utf8 m)), cs)
    | none => (.panicked, cs)
  | .indexMut i e =>
    match cut2 cs (idxRange (byteLen cs) i).1 (idxRange (byteLen cs) i).2 with
    | some (p, m, q) => (.returned .unit, p ++ e.apply m ++ q)
    | none => (.panicked, cs)
  | .asMutStr e => (.returned .unit, e.apply cs)
  | .asStr | .asBytes | .display => (.returned (.str (utf8 cs)), cs)
  | .len => (.returned (.nat (byteLen cs)), cs)
  | .isEmpty => (.returned (.bool (cs = [])), cs)
  | .capacity => (.returned (.nat N), cs)
  | .eqStr w => (.returned (.bool (cs = w)), cs)
  | .hash => (.returned (.str (utf8 cs ++ [0xff])), cs)

/-- A history of calls: the answers, and the final text. -/
def steps (N : Nat) : List Op → List Char → List Answer × List Char
  | [], cs => ([], cs)
  | op :: ops, cs =>
    let (a, cs) := step N op cs
    let (as, cs) := steps N ops cs
    (a :: as, cs)

/-- A program with branches and loops: the next call is chosen by the answers so far; `none` when the program
ends. -/
abbrev Chooser := List Answer → Option Op

/-- The answers to its first `n` calls, when it has seen `seen` before, and the text after them. -/
def choose (N : Nat) (f : Chooser) : Nat → List Answer → List Char → List Answer × List Char
  | 0, _, cs => ([], cs)
  | n + 1, seen, cs =>
    match f seen with
    | none => ([], cs)
    | some op =>
      let (a, cs) := step N op cs
      let (as, cs) := choose N f n (seen ++ [a]) cs
      (a :: as, cs)

end Verif.Spec
