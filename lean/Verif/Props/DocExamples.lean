import Verif.Props.History
import Verif.Props.CacheString

/-!
# The examples in the documentation

Tests: the `assert`s of the doc comments of src/arraystring.rs and src/lib.rs, on the model. A `?` or an `unwrap` is the
answer `.returned`; the string of an example is the one it makes first.
-/

namespace Verif
open Spec ArrayString

instance : ValidCapacity 23 := ⟨by decide⟩
instance : ValidCapacity 32 := ⟨by decide⟩

/-- The calls, beginning with an empty string, have these answers. -/
def Doc (N : Nat) (ops : List Op) (as : List Answer) : Prop :=
  (runOps ops (ArrayString.new : ArrayString N)).1 = as.map Answer.toRes

/-- The calls, beginning with an empty `CacheString`, have these answers. -/
def DocCache (ops : List Op) (as : List Answer) : Prop :=
  (CacheString.runOps ops ⟨ArrayString.new⟩).1 = as.map Answer.toRes

theorem doc {N : Nat} [ValidCapacity N] {ops : List Op} {as : List Answer} (hops : ∀ op ∈ ops, op.Ok)
    (h : (steps N ops []).1 = as) : Doc N ops as := h ▸ (C03_from_new ops hops).1

theorem docCache {ops : List Op} {as : List Answer} (hops : ∀ op ∈ ops, op.Ok)
    (h : (steps 63 ops []).1 = as) : DocCache ops as := h ▸ (C37_refinement ops hops ⟨.new⟩ [] holds_new).1

/-- `()` -/
abbrev done : Answer := .returned .unit
/-- A text that is looked at. -/
abbrev shows (s : String) : Answer := .returned (.str (utf8 s.toList))
/-- `"0".repeat(n)` -/
abbrev zeros (n : Nat) : List Char := List.replicate n '0'

/-- Only `replace_range` has an argument that may be no `usize`. -/
def plainOp : Op → Bool
  | .replaceRange _ _ => false
  | _ => true

theorem plainOp_ok {ops : List Op} (h : ops.all plainOp = true) : ∀ op ∈ ops, op.Ok := by
  intro op ho
  have := List.all_eq_true.1 h op ho
  cases op <;> simp_all [plainOp, Op.Ok]

macro "doc" : tactic => `(tactic| exact doc (plainOp_ok (by decide)) (by decide +kernel))
macro "docCache" : tactic => `(tactic| exact docCache (plainOp_ok (by decide)) (by decide +kernel))

/-- arraystring.rs:41-46 -/
example : Doc 23 [.new, .isEmpty] [done, .returned (.bool true)] := by doc

/-- arraystring.rs:58-71 -/
example : Doc 23 [.tryFromStr "My String".toList, .asStr, .tryFromStr [], .asStr, .tryFromStr (zeros (23 + 1))]
    [done, shows "My String", done, shows "", .failed .outOfBounds] := by doc

/-- arraystring.rs:85-96 -/
example : Doc 23 [.fromStrTruncate "My String".toList, .asStr, .display, .fromStrTruncate (zeros (23 + 1)), .eqStr (zeros 23)]
    [done, shows "My String", shows "My String", done, .returned (.bool true)] := by doc

/-- arraystring.rs:110-120 -/
example : Doc 255 [.tryFromIterator [some "My String".toList, some " My Other String".toList], .asStr]
    [done, shows "My String My Other String"] := by doc
example : Doc 23 [.tryFromIterator (List.replicate 100 (some (zeros 3)))] [.failed .outOfBounds] := by doc

/-- arraystring.rs:138-152 -/
example : Doc 255 [.fromIteratorTruncate (twice [some "My String".toList, some " Other String".toList]), .asStr]
    [done, shows "My String Other String"] := by doc
example : Doc 23 [.fromIteratorTruncate (twice (List.replicate 400 (some (zeros 3)))), .eqStr (zeros 23)]
    [done, .returned (.bool true)] := by doc

/-- arraystring.rs:171-182 -/
example : Doc 23 [.tryFromChars ("My String".toList.map some), .asStr, .tryFromChars ((zeros (23 + 1)).map some)]
    [done, shows "My String", .failed .outOfBounds] := by doc

/-- arraystring.rs:198-209 -/
example : Doc 23 [.fromCharsTruncate ("My String".toList.map some), .asStr,
      .fromCharsTruncate ((zeros (23 + 1)).map some), .eqStr (zeros 23)]
    [done, shows "My String", done, .returned (.bool true)] := by doc

/-- The units of the examples with UTF-16. -/
abbrev music : List UInt16 := [0xD834, 0xDD1E, 0x006d, 0x0075, 0x0073, 0x0069, 0x0063]
abbrev invalidUtf16 : List UInt16 := [0xD834, 0xDD1E, 0x006d, 0x0075, 0xD800, 0x0069, 0x0063]

/-- arraystring.rs:229-244 -/
example : Doc 23 [.tryFromUtf16 music, .asStr, .tryFromUtf16 invalidUtf16, .tryFromUtf16 (List.replicate 300 0)]
    [done, shows "𝄞music", .failed .utf16, .failed .outOfBounds] := by doc

/-- arraystring.rs:261-277 -/
example : Doc 23 [.fromUtf16Truncate music, .asStr, .fromUtf16Truncate invalidUtf16,
      .fromUtf16Truncate (List.replicate 300 0), .eqStr (List.replicate 23 '\x00')]
    [done, shows "𝄞music", .failed .utf16, done, .returned (.bool true)] := by doc

/-- arraystring.rs:295-311 -/
example : Doc 23 [.fromUtf16LossyTruncate music, .asStr, .fromUtf16LossyTruncate invalidUtf16, .asStr,
      .fromUtf16LossyTruncate (List.replicate 300 0), .eqStr (List.replicate 23 '\x00')]
    [done, shows "𝄞music", done, shows "𝄞mu�ic", done, .returned (.bool true)] := by doc

/-- arraystring.rs:327-335 -/
example : Doc 23 [.tryFromStr "My String".toList, .asStr] [done, shows "My String"] := by doc

/-- arraystring.rs:363-367 -/
example : Doc 32 [.capacity] [.returned (.nat 32)] := by doc

/-- arraystring.rs:377-388 -/
example : Doc 255 [.tryFromStr "My String".toList, .tryPushStr " My other String".toList, .asStr, .tryPushStr (zeros 255)]
    [done, done, shows "My String My other String", .failed .outOfBounds] := by doc

/-- arraystring.rs:402-415 -/
example : Doc 255 [.tryFromStr "My String".toList, .pushStrTruncate " My other String".toList, .asStr]
    [done, done, shows "My String My other String"] := by doc
example : Doc 23 [.default, .pushStrTruncate (zeros (23 + 1)), .eqStr (zeros 23)]
    [done, done, .returned (.bool true)] := by doc

/-- arraystring.rs:427-439 -/
example : Doc 23 [.tryFromStr "My String".toList, .tryPush '!', .asStr, .tryFromStr (zeros 23), .tryPush '!']
    [done, done, shows "My String!", done, .failed .outOfBounds] := by doc

/-- arraystring.rs:450-467 -/
example : Doc 23 [.tryFromStr "My String".toList, .truncate 5, .asStr, .truncate 6, .asStr, .tryFromStr "🤔".toList, .truncate 1]
    [done, done, shows "My St", done, shows "My St", done, .failed .utf8] := by doc

/-- arraystring.rs:478-488 -/
example : Doc 23 [.tryFromStr "A🤔".toList, .pop, .pop, .pop]
    [done, .returned (.optChar (some '🤔')), .returned (.optChar (some 'A')), .returned (.optChar none)] := by doc

/-- arraystring.rs:501-514 -/
example : Doc 255 [.tryFromStr "   to be trimmed     ".toList, .trim, .asStr]
    [done, done, shows "to be trimmed"] := by doc
example : Doc 23 [.tryFromStr "   🤔".toList, .trim, .asStr] [done, done, shows "🤔"] := by doc

/-- arraystring.rs:544-558 -/
example : Doc 23 [.tryFromStr "ABCD🤔".toList, .remove (byteLen "ABCD🤔".toList), .remove 10, .remove 6, .remove 0, .asStr,
      .remove 2, .asStr]
    [done, .failed .outOfBounds, .failed .outOfBounds, .failed .utf8, .returned (.char 'A'), shows "BCD🤔",
      .returned (.char 'D'), shows "BC🤔"] := by doc

/-- arraystring.rs:584-593 -/
example : Doc 23 [.tryFromStr "ABCD🤔".toList, .retain (fun _ c => some (c != '🤔')), .asStr]
    [done, done, shows "ABCD"] := by doc

/-- arraystring.rs:610-625 -/
example : Doc 23 [.tryFromStr "ABCD🤔".toList, .tryInsert 1 'A', .tryInsert 2 'B', .asStr, .tryInsert 20 'C', .tryInsert 8 'D',
      .tryFromStr (zeros 23), .tryInsert 0 'C']
    [done, done, done, shows "AABBCD🤔", .failed .outOfBounds, .failed .utf8, done, .failed .outOfBounds] := by doc

/-- arraystring.rs:642-655 -/
example : Doc 23 [.tryFromStr "ABCD🤔".toList, .tryInsertStr 1 "AB".toList, .tryInsertStr 1 "BC".toList, .tryInsertStr 1 (zeros 23),
      .asStr, .tryInsertStr 20 "C".toList, .tryInsertStr 10 "D".toList]
    [done, done, done, .failed .outOfBounds, shows "ABCABBCD🤔", .failed .outOfBounds, .failed .utf8] := by doc

/-- arraystring.rs:672-689 -/
example : Doc 23 [.tryFromStr "ABCD🤔".toList, .insertStrTruncate 1 "AB".toList, .insertStrTruncate 1 "BC".toList, .asStr,
      .insertStrTruncate 20 "C".toList, .insertStrTruncate 10 "D".toList, .clear, .insertStrTruncate 0 (zeros (23 + 10)),
      .eqStr (zeros 23)]
    [done, done, done, shows "ABCABBCD🤔", .failed .outOfBounds, .failed .utf8, done, done, .returned (.bool true)] := by doc

/-- arraystring.rs:707-718 -/
example : Doc 23 [.tryFromStr "ABCD".toList, .len, .tryPush '🤔', .len]
    [done, .returned (.nat 4), done, .returned (.nat 8)] := by doc

/-- arraystring.rs:733-744 -/
example : Doc 23 [.tryFromStr "AB🤔CD".toList, .splitOff 6, .asStr, .splitOff 20, .splitOff 4]
    [done, shows "CD", shows "AB🤔", .failed .outOfBounds, .failed .utf8] := by doc

/-- arraystring.rs:755-765 -/
example : Doc 23 [.tryFromStr "ABCD".toList, .isEmpty, .clear, .isEmpty]
    [done, .returned (.bool false), done, .returned (.bool true)] := by doc

/-- arraystring.rs:777-789 -/
example : Doc 23 [.tryFromStr "ABCD🤔".toList, .drain (.to 3) [.front, .front, .front, .front], .asStr,
      .drain (.from_ 3) [], .drain (.from_ 10) []]
    [done, .returned (.drained [some 'A', some 'B', some 'C', none] []), shows "D🤔", .failed .utf8,
      .failed .outOfBounds] := by doc

/-- arraystring.rs:824-837 -/
example : Doc 23 [.tryFromStr "ABCD🤔".toList, .replaceRange (.range 2 4) "EFGHI".toList, .eqStr "ABEFGHI🤔".toList,
      .replaceRange (.from_ 9) "J".toList, .replaceRange (.to 90) "K".toList, .replaceRange (.range 0 1) (zeros 23)]
    [done, done, .returned (.bool true), .failed .utf8, .failed .outOfBounds, .failed .outOfBounds] := by
  refine Verif.doc ?_ (by decide)
  have := usizeMax_ge
  simp [Op.Ok, RangeOk, BoundOk, RangeB.range, RangeB.from_, RangeB.to]; omega

/-- lib.rs:186-200, 208-221 -/
example : DocCache [.tryFromStr "My String".toList, .asStr, .tryFromStr [], .asStr, .tryFromStr (zeros (63 + 1)),
      .fromStrTruncate (zeros (63 + 1)), .eqStr (zeros 63)]
    [done, shows "My String", done, shows "", .failed .outOfBounds, done, .returned (.bool true)] := by docCache

/-- lib.rs:229-309 -/
example : DocCache [.tryFromIterator [some "My String".toList, some " My Other String".toList], .asStr,
      .tryFromIterator (List.replicate 100 (some (zeros 4))),
      .fromIteratorTruncate (twice [some "My String".toList, some " Other String".toList]), .asStr,
      .fromIteratorTruncate (twice (List.replicate 400 (some (zeros 3)))), .eqStr (zeros 63),
      .tryFromChars ("My String".toList.map some), .asStr, .tryFromChars ((zeros (63 + 1)).map some),
      .fromCharsTruncate ((zeros (63 + 1)).map some), .eqStr (zeros 63)]
    [done, shows "My String My Other String", .failed .outOfBounds, done, shows "My String Other String", done,
      .returned (.bool true), done, shows "My String", .failed .outOfBounds, done, .returned (.bool true)] := by docCache

/-- lib.rs:321-387 -/
example : DocCache [.tryFromUtf16 music, .asStr, .tryFromUtf16 invalidUtf16, .tryFromUtf16 (List.replicate 300 0),
      .fromUtf16Truncate music, .asStr, .fromUtf16Truncate invalidUtf16, .fromUtf16Truncate (List.replicate 300 0),
      .eqStr (List.replicate 63 '\x00'), .fromUtf16LossyTruncate music, .asStr, .fromUtf16LossyTruncate invalidUtf16, .asStr]
    [done, shows "𝄞music", .failed .utf16, .failed .outOfBounds, done, shows "𝄞music", .failed .utf16, done,
      .returned (.bool true), done, shows "𝄞music", done, shows "𝄞mu�ic"] := by docCache

/-- lib.rs:399-428 -/
example : DocCache [.capacity, .tryFromStr "AB🤔CD".toList, .splitOff 6, .asStr, .splitOff 20, .splitOff 4]
    [.returned (.nat 63), done, shows "CD", shows "AB🤔", .failed .outOfBounds, .failed .utf8] := by docCache

end Verif
