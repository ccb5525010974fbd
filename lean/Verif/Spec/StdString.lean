import Verif.Spec.History

/-!
# `std::string::String`, on texts

What the corresponding call does to a `String` (from its documentation).  There is no capacity; bad
indices panic.  `none`: the call has no counterpart (capacity, indexing by `u8` ranges, an `as_ref`
that changes its mind).
-/

namespace Verif.Spec

/-- All the items of an iterator, or what it yielded before it panicked. -/
def drainScript {α : Type} : Script α → Except (List α) (List α)
  | [] => .ok []
  | none :: _ => .error []
  | some a :: l =>
    match drainScript l with
    | .ok as => .ok (a :: as)
    | .error as => .error (a :: as)

/-- The characters of well-formed 16-bit units. -/
def segChars : List Seg → Option (List Char)
  | [] => some []
  | .chr c :: l => (segChars l).map (c :: ·)
  | .lone _ :: _ => none

/-- `String::insert_str`. -/
def stdInsert (i : Nat) (w cs : List Char) : Answer × List Char :=
  match cutAt cs i with
  | some (p, q) => (.returned .unit, p ++ w ++ q)
  | none => (.panicked, cs)

/-- `String::from_iter`. -/
def stdCollect (cs : List Char) : Except (List (List Char)) (List (List Char)) → Answer × List Char
  | .ok ws => (.returned .unit, ws.flatten)
  | .error _ => (.panicked, cs)

/-- `String::extend`; the pieces before a panic have been pushed. -/
def stdExtend (cs : List Char) : Except (List (List Char)) (List (List Char)) → Answer × List Char
  | .ok ws => (.returned .unit, cs ++ ws.flatten)
  | .error ws => (.panicked, cs ++ ws.flatten)

/-- `String::retain`; after a panic only the characters kept so far are left. -/
def stdRetain (f : List Char → Char → Option Bool) (seen : List Char) : List Char → Option Unit × List Char
  | [] => (some (), [])
  | c :: cs =>
    match f seen c with
    | none => (none, [])
    | some b =>
      let (r, out) := stdRetain f (seen ++ [c]) cs
      (r, if b then c :: out else out)

/-- A call on a `String` holding `cs`. -/
def stdStep (op : Op) (cs : List Char) : Option (Answer × List Char) :=
  match op with
  | .new | .default => some (.returned .unit, [])
  | .tryFromStr w | .parse w | .fromStrTruncate w | .from_ w => some (.returned .unit, w)
  | .tryFromIterator ws | .collectStrs ws => some (stdCollect cs (drainScript ws))
  | .fromIteratorTruncate ws =>
    if ∀ p ∈ ws, ∀ q ∈ p, q.1 = q.2 then some (stdCollect cs (drainScript (ws.map (Option.map Prod.fst)))) else none
  | .tryFromChars w | .fromCharsTruncate w | .collectChars w =>
    some (stdCollect cs (drainScript (w.map (Option.map fun c => [c]))))
  | .tryFromUtf16 l | .fromUtf16Truncate l =>
    match segChars (segment l) with
    | some w => some (.returned .unit, w)
    | none => some (.failed .utf16, cs)
  | .fromUtf16LossyTruncate l => some (.returned .unit, (segment l).map Seg.lossy)
  | .tryPushStr w | .pushStrTruncate w | .add w | .writeStr w => some (.returned .unit, cs ++ w)
  | .writeFmt ws => some (.returned .unit, cs ++ ws.flatten)
  | .tryPush c => some (.returned .unit, cs ++ [c])
  | .truncate n =>
    if byteLen cs ≤ n then some (.returned .unit, cs)
    else match cutAt cs n with
      | some (p, _) => some (.returned .unit, p)
      | none => some (.panicked, cs)
  | .pop => some (.returned (.optChar cs.getLast?), cs.dropLast)
  | .trim => some (.returned .unit, trimText cs)
  | .remove i =>
    match cutAt cs i with
    | some (p, c :: q) => some (.returned (.char c), p ++ q)
    | _ => some (.panicked, cs)
  | .retain f =>
    match stdRetain f [] cs with
    | (some (), out) => some (.returned .unit, out)
    | (none, out) => some (.panicked, out)
  | .tryInsert i c => some (stdInsert i [c] cs)
  | .tryInsertStr i w | .insertStrTruncate i w => some (stdInsert i w cs)
  | .clear => some (.returned .unit, [])
  | .drain r es =>
    match cut2 cs (startOf r) (endOf r (byteLen cs)) with
    | some (p, m, q) =>
      some (.returned (.drained (takeEnds es m).1 (utf8 (takeEnds es m).2)), p ++ q)
    | none => some (.panicked, cs)
  | .splitOff i =>
    match cutAt cs i with
    | some (p, q) => some (.returned (.str (utf8 q)), p)
    | none => some (.panicked, cs)
  | .replaceRange r w =>
    match cut2 cs (startOf r) (endOf r (byteLen cs)) with
    | some (p, _, q) => some (.returned .unit, p ++ w ++ q)
    | none => some (.panicked, cs)
  | .extendChars w => some (stdExtend cs (drainScript (w.map (Option.map fun c => [c]))))
  | .extendStrs ws => some (stdExtend cs (drainScript ws))
  | .asMutStr e => some (.returned .unit, e.apply cs)
  | .asStr | .asBytes | .display => some (.returned (.str (utf8 cs)), cs)
  | .len => some (.returned (.nat (byteLen cs)), cs)
  | .isEmpty => some (.returned (.bool (cs = [])), cs)
  | .eqStr w => some (.returned (.bool (cs = w)), cs)
  | .hash => some (.returned (.str (utf8 cs ++ [0xff])), cs)
  | .capacity | .index _ | .indexMut _ _ => none

end Verif.Spec
