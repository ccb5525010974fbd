import Verif.Model.Traits
import Verif.Spec.History
import Verif.Spec.Fmt

/-!
# Histories of calls on one `ArrayString`

Not code of the repository: a driver that performs the calls named by `Spec.Op` with the modelled
methods, one after the other, on the same string.  A caller may go on after an `Err`, and after
catching a panic.
-/

namespace Verif
open Spec ArrayString

variable {N : Nat} {ε α : Type}

/-- The caller's iterator following a script. -/
def scriptIter {α : Type} : Iter (Script α) α
  | [] => .done []
  | none :: _ => .panic
  | some a :: l => .item a l

/-- Call `next` or `next_back` on a `Drain`, following the given list of ends. -/
def drainEnds : List End → M (Drain N) ε (List (Option Char))
  | [] => pure []
  | .front :: es => do
    let o ← Drain.next
    let os ← drainEnds es
    pure (o :: os)
  | .back :: es => do
    let o ← Drain.nextBack
    let os ← drainEnds es
    pure (o :: os)

/-- The kind of an error value. -/
class Kind (ε : Type) where
  kind : ε → Failure
instance : Kind OutOfBounds := ⟨fun _ => .outOfBounds⟩
instance : Kind Utf8 := ⟨fun _ => .utf8⟩
instance : Kind Utf16 := ⟨fun _ => .utf16⟩
instance : Kind FmtError := ⟨fun _ => .fmt⟩
instance : Kind Error := ⟨fun e => match e with | .utf8 => .utf8 | .utf16 => .utf16 | .outOfBounds => .outOfBounds⟩

/-- Observe the outcome of a method. -/
def call [Kind ε] (m : M (ArrayString N) ε α) (out : α → Out) : M (ArrayString N) Failure Out := do
  let a ← M.mapErr Kind.kind m
  pure (out a)

/-- Observe the outcome of a constructor, and keep the string it made. -/
def construct [Kind ε] (r : Res ε α) (get : α → ArrayString N) : M (ArrayString N) Failure Out := do
  let a ← M.lift (r.mapErr Kind.kind)
  M.setSelf (get a)
  pure .unit

/-- Observe the outcome of a `&self` method. -/
def query [Kind ε] (f : ArrayString N → Res ε α) (out : α → Out) : M (ArrayString N) Failure Out := do
  let s ← M.self
  let a ← M.lift ((f s).mapErr Kind.kind)
  pure (out a)

/-- An edit of a `&mut str` on its bytes. -/
def Spec.Edit.onBytes (e : Edit) (b : Bytes) : Bytes := utf8 (e.apply (Str.chars b))

/-- Perform one call. -/
def exec (op : Op) : M (ArrayString N) Failure Out :=
  match op with
  | .new => construct (ε := Error) (.ok ArrayString.new) id
  | .default => construct (ε := Error) (.ok ArrayString.default) id
  | .tryFromStr w => construct (tryFromStr (utf8 w)) id
  | .parse w => construct (fromStr (utf8 w)) id
  | .fromStrTruncate w => construct (ε := Error) (fromStrTruncate (utf8 w)) id
  | .from_ w => construct (ε := Error) (ArrayString.from_ (utf8 w)) id
  | .tryFromIterator ws => construct (tryFromIterator scriptIter (ws.map (Option.map utf8))) Prod.fst
  | .fromIteratorTruncate ws => construct (ε := Error) (fromIteratorTruncate scriptIter
      (ws.map (Option.map fun p => ⟨utf8 p.1, utf8 p.2⟩))) Prod.fst
  | .collectStrs ws => construct (ε := Error) (fromIterStrs scriptIter
      (ws.map (Option.map fun w => ⟨utf8 w, utf8 w⟩))) Prod.fst
  | .tryFromChars w => construct (tryFromChars scriptIter w) Prod.fst
  | .fromCharsTruncate w => construct (ε := Error) (fromCharsTruncate scriptIter w) Prod.fst
  | .collectChars w => construct (ε := Error) (fromIterChars scriptIter w) Prod.fst
  | .tryFromUtf16 l => construct (tryFromUtf16 l) id
  | .fromUtf16Truncate l => construct (fromUtf16Truncate l) id
  | .fromUtf16LossyTruncate l => construct (ε := Error) (fromUtf16LossyTruncate l) id
  | .tryPushStr w => call (tryPushStr (utf8 w)) fun _ => .unit
  | .pushStrTruncate w => call (ε := Error) (pushStrTruncate (utf8 w)) fun _ => .unit
  | .tryPush c => call (tryPush c) fun _ => .unit
  | .truncate n => call (truncate n) fun _ => .unit
  | .pop => call (ε := Error) pop .optChar
  | .trim => call (ε := Error) trim fun _ => .unit
  | .remove i => call (remove i) .char
  | .retain f => call (ε := Error) (retain (logged f) []) fun _ => .unit
  | .tryInsert i c => call (tryInsert i c) fun _ => .unit
  | .tryInsertStr i w => call (tryInsertStr i (utf8 w)) fun _ => .unit
  | .insertStrTruncate i w => call (insertStrTruncate i (utf8 w)) fun _ => .unit
  | .clear => call (ε := Error) clear fun _ => .unit
  | .drain r es => call (ε := Error) (do
      let d ← drain r
      let (os, d) ← M.lift ((drainEnds es).onLocal d)
      let b ← M.lift d.asStr
      pure (os, b)) fun p => .drained p.1 p.2
  | .splitOff i => call (ε := Error) (do
      let t ← splitOff i
      M.lift t.asStr) .str
  | .replaceRange r w => call (replaceRange r (utf8 w)) fun _ => .unit
  | .extendChars w => call (ε := Error) (extendChars scriptIter w) fun _ => .unit
  | .extendStrs ws => call (ε := Error) (extendStrs scriptIter (ws.map (Option.map fun w => ⟨utf8 w, utf8 w⟩)))
      fun _ => .unit
  | .add w => do
      let s ← M.self
      construct (ε := Error) (s.add (utf8 w)) id
  | .writeStr w => call (writeStr (utf8 w)) fun _ => .unit
  | .writeFmt ws => call (writeFmt (ws.map fun w => .lit (utf8 w))) fun _ => .unit
  | .index i => query (ε := Error) (fun s => s.index i) .str
  | .indexMut i e => call (ε := Error) (indexMut i e.onBytes) fun _ => .unit
  | .asMutStr e => call (ε := Error) (asMutStr e.onBytes) fun _ => .unit
  | .asStr => query (ε := Error) (fun s => s.asStr) .str
  | .asBytes => query (ε := Error) (fun s => s.asRefBytes) .str
  | .display => query (ε := FmtError) (fun s => (do
      let ((), out) ← (s.display collect {}).onLocal []
      pure out)) .str
  | .len => query (ε := Error) (fun s => .ok s.len) .nat
  | .isEmpty => query (ε := Error) (fun s => s.isEmpty) .bool
  | .capacity => query (ε := Error) (fun _ => .ok (capacity N)) .nat
  | .eqStr w => query (ε := Error) (fun s => s.eqStr (utf8 w)) .bool
  | .hash => query (ε := Error) (fun s => s.hash traceHasher []) .str

/-- Perform a history of calls on a string; every outcome is recorded, and the caller goes on whatever
it was. -/
def runOps : List Op → ArrayString N → List (Res Failure Out) × ArrayString N
  | [], s => ([], s)
  | op :: ops, s =>
    let (r, s) := exec op s
    let (rs, s) := runOps ops s
    (r :: rs, s)

/-- The outcome an answer stands for. -/
def Spec.Answer.toRes : Answer → Res Failure Out
  | .returned o => .ok o
  | .failed e => .err e
  | .panicked => .panic

/-- What the caller sees of an outcome: nothing if the call had undefined behaviour or never returned. -/
def Res.seen : Res Failure Out → Option Answer
  | .ok o => some (.returned o)
  | .err e => some (.failed e)
  | .panic => some .panicked
  | .ub | .diverge => none

/-- Perform the first `n` calls of a program that chooses them by the answers so far. -/
def runChoice (f : Chooser) : Nat → List Answer → ArrayString N → List (Res Failure Out) × ArrayString N
  | 0, _, s => ([], s)
  | n + 1, seen, s =>
    match f seen with
    | none => ([], s)
    | some op =>
      let (r, s) := exec op s
      match r.seen with
      | none => ([r], s)
      | some a =>
        let (rs, s) := runChoice f n (seen ++ [a]) s
        (r :: rs, s)

end Verif
