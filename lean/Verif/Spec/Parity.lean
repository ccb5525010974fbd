import Verif.Spec.StdString

/-!
# The tests of the repository

tests/string_parity.rs compares `String` with `ArrayString<255>` on eight texts.  Here each test is a
constructor, with the index, character or predicate it uses as a parameter.
-/

namespace Verif.Spec

/-- The tests of string_parity.rs. -/
inductive ParityTest where
  | tryFromStr                                          -- :25-29
  | fromStrTruncate                                     -- :30-34
  | tryFromChars                                        -- :35-42
  | fromChars                                           -- :43-50
  | tryFromIter                                         -- :51-58
  | fromIter                                            -- :59-66
  | tryFromUtf16 (g : List UInt16 → List UInt16)        -- :67-75, :107-115 (`g`: what is done to the units first)
  | fromUtf16 (g : List UInt16 → List UInt16)           -- :76-84, :116-124
  | fromUtf16Lossy (g : List UInt16 → List UInt16)      -- :85-93, :125-133
  | tryPushStr                                          -- :134-148
  | pushStr                                             -- :149-164
  | addStr                                              -- :165-172
  | push (c : Char)                                     -- :173-187
  | truncate (i : Nat)                                  -- :188-204
  | pop                                                 -- :205-220
  | trim                                                -- :221-232
  | remove (i : Nat)                                    -- :233-249
  | retain (f : Char → Bool)                            -- :250-265
  | tryInsert (i : Nat) (c : Char)                      -- :266-282
  | tryInsertStr (i : Nat)                              -- :283-299
  | insertStr (i : Nat)                                 -- :300-317
  | clear                                               -- :318-333
  | splitOff (i : Nat)                                  -- :334-350
  | drain (i : Nat)                                     -- :351-368
  | replaceRange (i : Nat)                              -- :369-385
  | len                                                 -- :386-399
  | isEmpty                                             -- :400-413
  | new                                                 -- :414-418

namespace ParityTest

/-- The call of a test on the text `s`. -/
def op : ParityTest → List Char → Op
  | .tryFromStr, s => .tryFromStr s
  | .fromStrTruncate, s => .fromStrTruncate s
  | .tryFromChars, s => .tryFromChars (s.map some)
  | .fromChars, s => .fromCharsTruncate (s.map some)
  | .tryFromIter, s => .tryFromIterator [some s]
  | .fromIter, s => .fromIteratorTruncate [some (s, s)]
  | .tryFromUtf16 g, s => .tryFromUtf16 (g (utf16 s))
  | .fromUtf16 g, s => .fromUtf16Truncate (g (utf16 s))
  | .fromUtf16Lossy g, s => .fromUtf16LossyTruncate (g (utf16 s))
  | .tryPushStr, s => .tryPushStr s
  | .pushStr, s => .pushStrTruncate s
  | .addStr, s => .add s
  | .push c, _ => .tryPush c
  | .truncate i, _ => .truncate i
  | .pop, _ => .pop
  | .trim, _ => .trim
  | .remove i, _ => .remove i
  | .retain f, _ => .retain fun _ c => some (f c)
  | .tryInsert i c, _ => .tryInsert i c
  | .tryInsertStr i, s => .tryInsertStr i s
  | .insertStr i, s => .insertStrTruncate i s
  | .clear, _ => .clear
  | .splitOff i, _ => .splitOff i
  | .drain i, _ => .drain ⟨.unbounded, .excluded i⟩ []
  | .replaceRange i, s => .replaceRange ⟨.unbounded, .excluded i⟩ s
  | .len, _ => .len
  | .isEmpty, _ => .isEmpty
  | .new, _ => .new

/-- The test calls a constructor; the others start with a string holding the text. -/
def constructs : ParityTest → Bool
  | .tryFromStr | .fromStrTruncate | .tryFromChars | .fromChars | .tryFromIter | .fromIter | .tryFromUtf16 _
  | .fromUtf16 _ | .fromUtf16Lossy _ | .new => true
  | _ => false

/-- The index is a `usize`. -/
def Ok : ParityTest → Prop
  | .replaceRange i => i ≤ usizeMax
  | _ => True

/-- The side of the test with `String`: what was returned and the text afterwards, or that there was an
error or a panic (the tests do not tell them apart). -/
def std (t : ParityTest) (s : List Char) : Option (Out × List Char) :=
  match stdStep (t.op s) s with
  | some (.returned o, cs) => some (o, cs)
  | _ => none

/-- The texts for which the test passes with capacity `N`. -/
def Holds (N : Nat) (s : List Char) : ParityTest → Prop
  | .tryFromStr | .fromStrTruncate | .tryFromChars | .fromChars | .tryFromIter | .fromIter => byteLen s ≤ N
  -- all characters, if there are no unpaired surrogates
  | .tryFromUtf16 g => ∀ w, utf16 w = g (utf16 s) → byteLen w ≤ N
  -- the characters before the first unpaired surrogate
  | .fromUtf16 g => ∀ segs, Segments (g (utf16 s)) segs → byteLen (leadingChars segs) ≤ N
  | .fromUtf16Lossy g => ∀ segs, Segments (g (utf16 s)) segs → byteLen (segs.map Seg.lossy) ≤ N
  | .tryPushStr | .pushStr | .addStr => 2 * byteLen s ≤ N
  | .push c => byteLen s + c.utf8Size ≤ N
  | .truncate _ | .pop | .trim | .remove _ | .retain _ | .clear | .splitOff _ | .drain _ | .len | .isEmpty => byteLen s ≤ N
  | .tryInsert i c => byteLen s ≤ N ∧ (IsBoundary s i → byteLen s + c.utf8Size ≤ N)
  | .tryInsertStr i => byteLen s ≤ N ∧ (IsBoundary s i → 2 * byteLen s ≤ N)
  -- at a bad index inside the text, `ArrayString` succeeds if no character of the text fits any more
  | .insertStr i => byteLen s ≤ N ∧ (IsBoundary s i → 2 * byteLen s ≤ N) ∧
      (¬ IsBoundary s i → i < byteLen s → ∃ c rest, s = c :: rest ∧ byteLen s + c.utf8Size ≤ N)
  | .replaceRange i => byteLen s ≤ N ∧ (IsBoundary s i → 2 * byteLen s ≤ N + i)
  | .new => True

end ParityTest

/-- :94-106 `invalidate_utf16`. -/
def invalidateUtf16 (l : List UInt16) : List UInt16 :=
  if 7 ≤ l.length then [0xD834, 0xDD1E, 0x006D, 0x0075, 0xD800, 0x0069, 0x0063] ++ l.drop 7 else l

/-- The tests as they are in the file. -/
def parityTests : List ParityTest :=
  [.tryFromStr, .fromStrTruncate, .tryFromChars, .fromChars, .tryFromIter, .fromIter, .tryFromUtf16 id, .fromUtf16 id,
   .fromUtf16Lossy id, .tryFromUtf16 invalidateUtf16, .fromUtf16 invalidateUtf16, .fromUtf16Lossy invalidateUtf16,
   .tryPushStr, .pushStr, .addStr, .push '🤔', .truncate 2, .pop, .trim, .remove 2, .retain (· == 'a'), .tryInsert 2 'a',
   .tryInsertStr 2, .insertStr 2, .clear, .splitOff 2, .drain 2, .replaceRange 2, .len, .isEmpty, .new]

/-- :14-24 `STRINGS`. -/
def parityStrings : List (List Char) :=
  ["🤔🤔🤔🤔🤔🤔🤔".toList, "ABCDEFGHIJKLMNOPQRSASHUDAHSDIUASH         ".toList, "iejueueheuheuheu        0".toList, [],
   ['1'], ['a', 'b'], [' ', ' ', ' '], "        899saH(8hadhaiuhsidnkandu".toList]

end Verif.Spec
