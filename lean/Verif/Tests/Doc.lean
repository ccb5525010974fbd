import Verif.Model.History

/-!
# Tests: the examples in the doc comments, and the scenarios of `tests/string_parity.rs`

These are tests of the model on literals (evaluated with `#guard`), not theorems.  They check that the
model answers what the crate's own examples and tests assert.
-/

namespace Verif.Tests
open Verif Spec ArrayString

/-- Run calls on a new string of capacity `N`; the answers. -/
def answers (N : Nat) (ops : List Op) : List (Res Failure Out) := (runOps ops (ArrayString.new : ArrayString N)).1

/-- The last answer. -/
def last (N : Nat) (ops : List Op) : Option (Res Failure Out) := (answers N ops).getLast?

def t (s : String) : List Char := s.toList
def str (s : String) : Option (Res Failure Out) := some (.ok (.str (utf8 s.toList)))
def oob : Option (Res Failure Out) := some (.err .outOfBounds)
def u8 : Option (Res Failure Out) := some (.err .utf8)
def u16 : Option (Res Failure Out) := some (.err .utf16)
def zeros (n : Nat) : String := "".pushn '0' n
def script {α : Type} (l : List α) : Script α := l.map some
def twice' (l : List String) : Script (List Char × List Char) := l.map fun s => some (t s, t s)

/-! ## arraystring.rs -/

-- new, 44-45
#guard last 23 [.new, .isEmpty] = some (.ok (.bool true))
-- try_from_str, 62-68
#guard last 23 [.tryFromStr (t "My String"), .asStr] = str "My String"
#guard last 23 [.tryFromStr [], .asStr] = str ""
#guard last 23 [.tryFromStr (t (zeros 24))] = oob
-- from_str_truncate, 88-95
#guard last 23 [.fromStrTruncate (t "My String"), .asStr] = str "My String"
#guard last 23 [.fromStrTruncate (t (zeros 24)), .asStr] = str (zeros 23)
-- try_from_iterator, 113-117
#guard last 255 [.tryFromIterator (script [t "My String", t " My Other String"]), .asStr] = str "My String My Other String"
#guard last 23 [.tryFromIterator (script (List.replicate 100 (t "000")))] = oob
-- from_iterator_truncate, 142-149
#guard last 255 [.fromIteratorTruncate (twice' ["My String", " Other String"]), .asStr] = str "My String Other String"
#guard last 23 [.fromIteratorTruncate (twice' (List.replicate 400 "000")), .asStr] = str (zeros 23)
-- try_from_chars, 175-179
#guard last 23 [.tryFromChars (script (t "My String")), .asStr] = str "My String"
#guard last 23 [.tryFromChars (script (t (zeros 24)))] = oob
-- from_chars_truncate, 201-208
#guard last 23 [.fromCharsTruncate (script (t "My String")), .asStr] = str "My String"
#guard last 23 [.fromCharsTruncate (script (t (zeros 24))), .asStr] = str (zeros 23)

def music : List UInt16 := [0xD834, 0xDD1E, 0x006d, 0x0075, 0x0073, 0x0069, 0x0063]
def invalid : List UInt16 := [0xD834, 0xDD1E, 0x006d, 0x0075, 0xD800, 0x0069, 0x0063]
def nuls (n : Nat) : String := "".pushn '\x00' n

-- try_from_utf16, 233-241
#guard last 23 [.tryFromUtf16 music, .asStr] = str "𝄞music"
#guard last 23 [.tryFromUtf16 invalid] = u16
#guard last 23 [.tryFromUtf16 (List.replicate 300 0)] = oob
-- from_utf16_truncate, 265-274
#guard last 23 [.fromUtf16Truncate music, .asStr] = str "𝄞music"
#guard last 23 [.fromUtf16Truncate invalid] = u16
#guard last 23 [.fromUtf16Truncate (List.replicate 300 0), .asStr] = str (nuls 23)
-- from_utf16_lossy_truncate, 299-308
#guard last 23 [.fromUtf16LossyTruncate music, .asStr] = str "𝄞music"
#guard last 23 [.fromUtf16LossyTruncate invalid, .asStr] = str "𝄞mu�ic"
#guard last 23 [.fromUtf16LossyTruncate (List.replicate 300 0), .asStr] = str (nuls 23)
-- as_str, 331-332; capacity, 366
#guard last 23 [.tryFromStr (t "My String"), .asStr] = str "My String"
#guard last 32 [.capacity] = some (.ok (.nat 32))
-- try_push_str, 381-385
#guard last 255 [.tryFromStr (t "My String"), .tryPushStr (t " My other String"), .asStr] = str "My String My other String"
#guard last 255 [.tryFromStr (t "My String"), .tryPushStr (t (zeros 255))] = oob
-- push_str_truncate, 406-412
#guard last 255 [.tryFromStr (t "My String"), .pushStrTruncate (t " My other String"), .asStr] = str "My String My other String"
#guard last 23 [.default, .pushStrTruncate (t (zeros 24)), .asStr] = str (zeros 23)
-- try_push, 431-436
#guard last 23 [.tryFromStr (t "My String"), .tryPush '!', .asStr] = str "My String!"
#guard last 23 [.tryFromStr (t (zeros 23)), .tryPush '!'] = oob
-- truncate, 454-464
#guard last 23 [.tryFromStr (t "My String"), .truncate 5, .asStr] = str "My St"
#guard last 23 [.tryFromStr (t "My String"), .truncate 5, .truncate 6, .asStr] = str "My St"
#guard last 23 [.tryFromStr (t "🤔"), .truncate 1] = u8
-- pop, 482-485
#guard answers 23 [.tryFromStr (t "A🤔"), .pop, .pop, .pop]
  = [.ok .unit, .ok (.optChar (some '🤔')), .ok (.optChar (some 'A')), .ok (.optChar none)]
-- trim, 505-511
#guard last 255 [.tryFromStr (t "   to be trimmed     "), .trim, .asStr] = str "to be trimmed"
#guard last 23 [.tryFromStr (t "   🤔"), .trim, .asStr] = str "🤔"
-- remove, 548-555
#guard answers 23 [.tryFromStr (t "ABCD🤔"), .remove 8, .remove 10, .remove 6, .remove 0, .asStr, .remove 2, .asStr]
  = [.ok .unit, .err .outOfBounds, .err .outOfBounds, .err .utf8, .ok (.char 'A'), .ok (.str (utf8 (t "BCD🤔"))),
     .ok (.char 'D'), .ok (.str (utf8 (t "BC🤔")))]
-- retain, 588-590
#guard last 23 [.tryFromStr (t "ABCD🤔"), .retain (fun _ c => some (c != '🤔')), .asStr] = str "ABCD"
-- try_insert, 614-622
#guard answers 23 [.tryFromStr (t "ABCD🤔"), .tryInsert 1 'A', .tryInsert 2 'B', .asStr, .tryInsert 20 'C', .tryInsert 8 'D']
  = [.ok .unit, .ok .unit, .ok .unit, .ok (.str (utf8 (t "AABBCD🤔"))), .err .outOfBounds, .err .utf8]
#guard last 23 [.tryFromStr (t (zeros 23)), .tryInsert 0 'C'] = oob
-- try_insert_str, 646-652
#guard answers 23 [.tryFromStr (t "ABCD🤔"), .tryInsertStr 1 (t "AB"), .tryInsertStr 1 (t "BC"), .tryInsertStr 1 (t (zeros 23)),
    .asStr, .tryInsertStr 20 (t "C"), .tryInsertStr 10 (t "D")]
  = [.ok .unit, .ok .unit, .ok .unit, .err .outOfBounds, .ok (.str (utf8 (t "ABCABBCD🤔"))), .err .outOfBounds, .err .utf8]
-- insert_str_truncate, 676-686
#guard answers 23 [.tryFromStr (t "ABCD🤔"), .insertStrTruncate 1 (t "AB"), .insertStrTruncate 1 (t "BC"),
    .asStr, .insertStrTruncate 20 (t "C"), .insertStrTruncate 10 (t "D"), .clear, .insertStrTruncate 0 (t (zeros 33)), .asStr]
  = [.ok .unit, .ok .unit, .ok .unit, .ok (.str (utf8 (t "ABCABBCD🤔"))), .err .outOfBounds, .err .utf8, .ok .unit, .ok .unit,
     .ok (.str (utf8 (t (zeros 23))))]
-- len, 711-715
#guard answers 23 [.tryFromStr (t "ABCD"), .len, .tryPush '🤔', .len]
  = [.ok .unit, .ok (.nat 4), .ok .unit, .ok (.nat 8)]
-- split_off, 738-742
#guard answers 23 [.tryFromStr (t "AB🤔CD"), .splitOff 6, .asStr, .splitOff 20, .splitOff 4]
  = [.ok .unit, .ok (.str (utf8 (t "CD"))), .ok (.str (utf8 (t "AB🤔"))), .err .outOfBounds, .err .utf8]
-- clear, 760-763
#guard answers 23 [.tryFromStr (t "ABCD"), .isEmpty, .clear, .isEmpty]
  = [.ok .unit, .ok (.bool false), .ok .unit, .ok (.bool true)]
-- drain, 782-787
#guard answers 23 [.tryFromStr (t "ABCD🤔"), .drain (.to 3) [.front, .front, .front, .front], .asStr, .drain (.from_ 3) [], .drain (.from_ 10) []]
  = [.ok .unit, .ok (.drained [some 'A', some 'B', some 'C', none] []), .ok (.str (utf8 (t "D🤔"))), .err .utf8, .err .outOfBounds]
-- replace_range, 829-835
#guard answers 23 [.tryFromStr (t "ABCD🤔"), .replaceRange (.range 2 4) (t "EFGHI"), .eqStr (t "ABEFGHI🤔"),
    .replaceRange (.from_ 9) (t "J"), .replaceRange (.to 90) (t "K"), .replaceRange (.range 0 1) (t (zeros 23))]
  = [.ok .unit, .ok .unit, .ok (.bool true), .err .utf8, .err .outOfBounds, .err .outOfBounds]

/-! ## utils.rs:76-81 -/

#guard (truncateStr (utf8 (t "i")) 10 : Res Unit Bytes) = .ok (utf8 (t "i"))
#guard (truncateStr (utf8 (t "iiiiii")) 3 : Res Unit Bytes) = .ok (utf8 (t "iii"))
#guard (truncateStr (utf8 (t "🤔🤔🤔")) 5 : Res Unit Bytes) = .ok (utf8 (t "🤔"))

/-! ## tests/string_parity.rs, on its eight strings (14-23)

What `String` answers is written with operations of lists of characters that fit the literals. -/

def strings : List String :=
  ["🤔🤔🤔🤔🤔🤔🤔", "ABCDEFGHIJKLMNOPQRSASHUDAHSDIUASH         ", "iejueueheuheuheu        0", "", "1", "ab", "   ",
   "        899saH(8hadhaiuhsidnkandu"]

/-- The calls, then `as_str`. -/
def text (s : String) (ops : List Op) : Option (Res Failure Out) := last 255 (.tryFromStr (t s) :: ops ++ [.asStr])

#guard strings.all fun s => last 255 [.tryFromStr (t s), .asStr] == str s
#guard strings.all fun s => last 255 [.fromStrTruncate (t s), .asStr] == str s
#guard strings.all fun s => last 255 [.tryFromChars (script (t s)), .asStr] == str s
#guard strings.all fun s => last 255 [.fromCharsTruncate (script (t s)), .asStr] == str s
#guard strings.all fun s => last 255 [.tryFromIterator [some (t s)], .asStr] == str s
#guard strings.all fun s => last 255 [.fromIteratorTruncate [some (t s, t s)], .asStr] == str s
#guard strings.all fun s => text s [.tryPushStr (t s)] == str (s ++ s)
#guard strings.all fun s => text s [.pushStrTruncate (t s)] == str (s ++ s)
#guard strings.all fun s => text s [.add (t s)] == str (s ++ s)
#guard strings.all fun s => text s [.tryPush '🤔'] == str (s ++ "🤔")
#guard strings.all fun s => text s [.pop] == str (String.ofList (t s).dropLast)
#guard strings.all fun s => last 255 [.tryFromStr (t s), .pop] == some (.ok (.optChar (t s).getLast?))
#guard strings.all fun s => text s [.trim] == str (String.ofList (((t s).dropWhile (· == ' ')).reverse.dropWhile (· == ' ')).reverse)
#guard strings.all fun s => text s [.retain fun _ c => some (c == 'a')] == str (String.ofList ((t s).filter (· == 'a')))
#guard strings.all fun s => text s [.clear] == str ""
#guard strings.all fun s => last 255 [.tryFromStr (t s), .len] == some (.ok (.nat s.utf8ByteSize))
#guard strings.all fun s => last 255 [.tryFromStr (t s), .isEmpty] == some (.ok (.bool s.isEmpty))
-- `truncate(2)`, `remove(2)`, `insert(2, 'a')`, `split_off(2)`, `drain(..2)`, `replace_range(..2, s)`: string by string
#guard strings.map (fun s => last 255 [.tryFromStr (t s), .truncate 2]) =
  [u8] ++ List.replicate 7 (some (.ok .unit))
#guard strings.map (fun s => last 255 [.tryFromStr (t s), .remove 2]) =
  [u8, some (.ok (.char 'C')), some (.ok (.char 'j')), oob, oob, oob, some (.ok (.char ' ')), some (.ok (.char ' '))]
#guard strings.map (fun s => last 255 [.tryFromStr (t s), .tryInsert 2 'a']) =
  [u8, some (.ok .unit), some (.ok .unit), oob, oob, some (.ok .unit), some (.ok .unit), some (.ok .unit)]
#guard strings.map (fun s => last 255 [.tryFromStr (t s), .splitOff 2]) =
  [u8, str "CDEFGHIJKLMNOPQRSASHUDAHSDIUASH         ", str "jueueheuheuheu        0", oob, oob, str "", str " ",
   str "      899saH(8hadhaiuhsidnkandu"]
#guard strings.map (fun s => last 255 [.tryFromStr (t s), .drain (.to 2) [.front, .front, .front]]) =
  [u8, some (.ok (.drained [some 'A', some 'B', none] [])), some (.ok (.drained [some 'i', some 'e', none] [])), oob, oob,
   some (.ok (.drained [some 'a', some 'b', none] [])), some (.ok (.drained [some ' ', some ' ', none] [])),
   some (.ok (.drained [some ' ', some ' ', none] []))]
#guard text "ab" [.replaceRange (.to 2) (t "ab")] = str "ab"
#guard text "   " [.replaceRange (.to 2) (t "   ")] = str "    "
#guard text "ab" [.tryInsertStr 2 (t "ab")] = str "abab"
#guard text "ab" [.insertStrTruncate 2 (t "ab")] = str "abab"
-- with UTF-16, valid and with units 0..6 overwritten as in lines 95-106
#guard last 255 [.tryFromUtf16 (List.flatten (List.replicate 7 [0xD83E, 0xDD14])), .asStr] = str "🤔🤔🤔🤔🤔🤔🤔"
#guard last 255 [.tryFromUtf16 ([0xD834, 0xDD1E, 0x006D, 0x0075, 0xD800, 0x0069, 0x0063] ++ List.flatten (List.replicate 3 [0xDD14, 0xD83E]))] = u16
#guard last 255 [.fromUtf16LossyTruncate ([0xD834, 0xDD1E, 0x006D, 0x0075, 0xD800, 0x0069, 0x0063]), .asStr] = str "𝄞mu�ic"

end Verif.Tests
