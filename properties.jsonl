{"id": "C01", "title": "Every reachable string is valid UTF-8 and within capacity", "statement": "After any finite sequence of safe API calls starting from any constructor, the bytes visible through as_ref::<[u8]>() are valid UTF-8 and len() <= capacity(), whatever the calls returned.", "quantifier": "every capacity 1..=255, every constructor, every finite history of calls with arbitrary arguments", "why_tests_cant": "Histories and contents are unbounded in combination; a test visits finitely many.", "anchors": ["src/arraystring.rs:replace_range", "src/arraystring.rs:truncate", "src/arraystring.rs:pop", "src/arraystring.rs:trim", "src/arraystring.rs:clear", "src/implementations.rs:AsRef<str>", "src/utils.rs:truncate_str"]}
{"id": "C02", "title": "No panic, no undefined behaviour, no divergence", "statement": "No call of a history other than Index/IndexMut panics, reads or writes outside the buffer, builds an invalid str, overflows an integer, or loops forever, on any reachable string and any arguments (with terminating, non panicking user callbacks).", "quantifier": "every capacity, reachable string, argument (including usize::MAX indices and bounds) and history", "why_tests_cant": "Absence of out-of-bounds pointer arithmetic and overflow is a universal claim; Miri runs only observe executed inputs.", "anchors": ["src/arraystring.rs:replace_range", "src/arraystring.rs:drain", "src/arraystring.rs:remove", "src/arraystring.rs:trim", "src/arraystring.rs:pop", "src/utils.rs:truncate_str", "src/utils.rs:into_lossy"]}
{"id": "C03", "title": "Any history refines an abstract bounded list of characters", "statement": "Running any finite sequence of operations on an ArrayString gives, call by call, the same return values and the same as_str() as running it on a plain list of characters with a byte budget. So does running any program that chooses the next operation by the return values so far, after any number of operations.", "quantifier": "every capacity and every finite list of operations with arbitrary arguments, and every finite or infinite program with branches and loops", "why_tests_cant": "Refinement must hold for all interleavings of all operations.", "anchors": ["src/arraystring.rs:impl ArrayString", "src/implementations.rs:Extend", "src/implementations.rs:Write", "src/implementations.rs:Add"]}
{"id": "C04", "title": "A failed operation changes nothing", "statement": "Whenever a method taking &mut self returns Err, the string afterwards is identical to the string before (same text, same length, same stale bytes). The one exception is write! (fmt::Write::write_fmt), which may have written some of its pieces before the one that fails: refuted by a witness.", "quantifier": "every fallible method, string and argument", "why_tests_cant": "All error branches over all inputs must be covered.", "anchors": ["src/arraystring.rs:try_push_str", "src/arraystring.rs:try_push", "src/arraystring.rs:truncate", "src/arraystring.rs:remove", "src/arraystring.rs:try_insert", "src/arraystring.rs:try_insert_str", "src/arraystring.rs:insert_str_truncate", "src/arraystring.rs:split_off", "src/arraystring.rs:drain", "src/arraystring.rs:replace_range", "src/implementations.rs:write_str"]}
{"id": "C05", "title": "try_push_str appends exactly or fails exactly on lack of room", "statement": "s.try_push_str(t) returns Ok iff s.len()+t.len() <= capacity; then as_str() is the concatenation; otherwise it returns OutOfBounds and s is unchanged.", "quantifier": "every string s and every str t of any length", "why_tests_cant": "t is unbounded; boundary depends on both lengths.", "anchors": ["src/arraystring.rs:try_push_str", "src/arraystring.rs:replace_range"]}
{"id": "C06", "title": "push_str_truncate appends the longest whole-character prefix that fits", "statement": "After s.push_str_truncate(t), as_str() is the old text followed by the longest prefix of t, made of whole characters, whose byte length is at most the free space.", "quantifier": "every s and t", "why_tests_cant": "every mix of 1-4 byte characters around the cut must be right.", "anchors": ["src/arraystring.rs:push_str_truncate", "src/utils.rs:truncate_str"]}
{"id": "C07", "title": "try_push appends one character or fails exactly on lack of room", "statement": "s.try_push(c) returns Ok iff s.len()+c.len_utf8() <= capacity; then the text is the old text followed by c; otherwise OutOfBounds and unchanged.", "quantifier": "every string, every Unicode scalar value", "why_tests_cant": "1.1 million characters times all strings.", "anchors": ["src/arraystring.rs:try_push"]}
{"id": "C08", "title": "try_from_str / FromStr keep the text exactly or reject", "statement": "try_from_str(t) (and str::parse) returns Ok iff t.len() <= capacity, with as_str() == t; otherwise Err(OutOfBounds).", "quantifier": "every str t, every capacity", "why_tests_cant": "t is unbounded.", "anchors": ["src/arraystring.rs:try_from_str", "src/implementations.rs:FromStr"]}
{"id": "C09", "title": "from_str_truncate keeps the longest whole-character prefix", "statement": "from_str_truncate(t) (and From<&str>) holds the longest whole-character prefix of t whose byte length is <= capacity; it equals t when t fits; applying it to its own output changes nothing.", "quantifier": "every str t, every capacity", "why_tests_cant": "t is unbounded; all cut positions inside multi-byte characters.", "anchors": ["src/arraystring.rs:from_str_truncate", "src/implementations.rs:From<&str>", "src/utils.rs:truncate_str"]}
{"id": "C10", "title": "try_from_iterator concatenates all pieces or fails", "statement": "try_from_iterator(it) returns Ok iff the total byte length of the pieces is <= capacity, holding their concatenation; otherwise OutOfBounds.", "quantifier": "every finite sequence of strs", "why_tests_cant": "arbitrary number and sizes of pieces.", "anchors": ["src/arraystring.rs:try_from_iterator"]}
{"id": "C11", "title": "from_iterator_truncate holds the longest whole-character prefix of the concatenation", "statement": "from_iterator_truncate(it) (and FromIterator<&str>) holds the longest whole-character prefix of the concatenation of all pieces that fits the capacity, and never pulls pieces after the first one that does not fit.", "quantifier": "every finite sequence of strs", "why_tests_cant": "arbitrary number and sizes of pieces.", "anchors": ["src/arraystring.rs:from_iterator_truncate", "src/implementations.rs:FromIterator<&str>"]}
{"id": "C12", "title": "try_from_chars / from_chars_truncate", "statement": "try_from_chars(it) is Ok with exactly those characters iff their total UTF-8 length is <= capacity, else OutOfBounds; from_chars_truncate(it) (and FromIterator<char>) holds the longest prefix of the characters that fits.", "quantifier": "every finite sequence of characters", "why_tests_cant": "unbounded sequences, all byte-width mixes.", "anchors": ["src/arraystring.rs:try_from_chars", "src/arraystring.rs:from_chars_truncate", "src/implementations.rs:FromIterator<char>"]}
{"id": "C13", "title": "try_from_utf16 round-trips valid UTF-16 and rejects invalid data", "statement": "For the UTF-16 encoding of any text, try_from_utf16 is Ok with that text iff its UTF-8 length is <= capacity, else Err(OutOfBounds). For a slice that is not valid UTF-16 it never returns Ok, and the error is Utf16 when the characters before the first unpaired surrogate fit, OutOfBounds otherwise.", "quantifier": "every u16 slice of any length", "why_tests_cant": "all surrogate placements in unbounded slices.", "anchors": ["src/arraystring.rs:try_from_utf16"]}
{"id": "C14", "title": "from_utf16_truncate", "statement": "On valid UTF-16 it is Ok with the longest fitting prefix of the text; on invalid UTF-16 it returns Err(Utf16) exactly when every character before the first unpaired surrogate fits; otherwise Ok with the longest fitting prefix of what precedes it. (The doc comment's stronger 'returns Utf16 on invalid utf-16 data' is false: refuted by a witness.)", "quantifier": "every u16 slice", "why_tests_cant": "all surrogate placements relative to the cut.", "anchors": ["src/arraystring.rs:from_utf16_truncate"]}
{"id": "C15", "title": "from_utf16_lossy_truncate", "statement": "Each unpaired surrogate decodes to U+FFFD and everything else to its character; the result holds the longest prefix of that sequence that fits. The decomposition of a slice into characters and unpaired surrogates exists and is unique.", "quantifier": "every u16 slice", "why_tests_cant": "all surrogate placements.", "anchors": ["src/arraystring.rs:from_utf16_lossy_truncate"]}
{"id": "C16", "title": "truncate", "statement": "s.truncate(n): if n >= len() Ok and unchanged; if n is a character boundary the text becomes its first n bytes; otherwise Err(Utf8) and unchanged.", "quantifier": "every s, every usize n", "why_tests_cant": "all boundaries in all texts.", "anchors": ["src/arraystring.rs:truncate"]}
{"id": "C17", "title": "pop", "statement": "s.pop() returns None and changes nothing on the empty string; otherwise returns the last character and leaves the rest.", "quantifier": "every s", "why_tests_cant": "all last characters.", "anchors": ["src/arraystring.rs:pop"]}
{"id": "C18", "title": "trim", "statement": "After s.trim() the text is the old text without its leading and trailing Unicode White_Space characters; interior characters are untouched; trim is idempotent.", "quantifier": "every s", "why_tests_cant": "all placements of whitespace of differing widths.", "anchors": ["src/arraystring.rs:trim"]}
{"id": "C19", "title": "remove", "statement": "s.remove(i): Err(OutOfBounds) iff i >= len(); Err(Utf8) iff i < len() is not a character boundary; otherwise returns the character starting at byte i and removes exactly it.", "quantifier": "every s, every usize i", "why_tests_cant": "all indices incl. usize::MAX.", "anchors": ["src/arraystring.rs:remove"]}
{"id": "C20", "title": "retain keeps exactly the accepted characters, calling the predicate once per character in order", "statement": "s.retain(f) with a stateful predicate calls f exactly once on every character, first to last, and leaves exactly those for which that call returned true, in order.", "quantifier": "every s, every (stateful) predicate", "why_tests_cant": "predicates are arbitrary functions.", "anchors": ["src/arraystring.rs:retain", "src/arraystring.rs:from_chars_truncate"]}
{"id": "C21", "title": "try_insert / try_insert_str", "statement": "Inserting non-empty t at i: Err(OutOfBounds) if i > len() ; if i is not a character boundary the call fails with Err(Utf8) (or OutOfBounds when t alone exceeds the capacity); if the total exceeds the capacity Err(OutOfBounds); otherwise the text becomes prefix ++ t ++ suffix at byte i. An empty t is always accepted for i <= len() and changes nothing.", "quantifier": "every s, i, t", "why_tests_cant": "all positions and sizes.", "anchors": ["src/arraystring.rs:try_insert", "src/arraystring.rs:try_insert_str"]}
{"id": "C22", "title": "insert_str_truncate", "statement": "At a character boundary i <= len(), inserts the longest whole-character prefix of t that fits the free space; i > len() gives OutOfBounds; i inside a character gives Utf8 unless the prefix that fits is empty.", "quantifier": "every s, i, t", "why_tests_cant": "all positions and cuts.", "anchors": ["src/arraystring.rs:insert_str_truncate", "src/utils.rs:truncate_str"]}
{"id": "C23", "title": "split_off", "statement": "s.split_off(at): at > len() gives OutOfBounds, at inside a character gives Utf8 (both unchanged); otherwise s keeps the first at bytes and the returned string holds the rest; their concatenation is the original text.", "quantifier": "every s, at", "why_tests_cant": "all positions.", "anchors": ["src/arraystring.rs:split_off", "src/arraystring.rs:drain"]}
{"id": "C24", "title": "drain removes the range and yields it", "statement": "s.drain(a..b): OutOfBounds if a > b or b > len(), Utf8 if a or b is inside a character (unchanged in both cases); otherwise s becomes the text without bytes a..b immediately, before any iteration, and the iterator's as_str() is the removed text.", "quantifier": "every s, every range", "why_tests_cant": "all ranges.", "anchors": ["src/arraystring.rs:drain"]}
{"id": "C25", "title": "Drain iterates like a double-ended queue of the removed characters", "statement": "Under any interleaving of next() and next_back(), Drain yields the removed characters from the front / back respectively, each exactly once, then None forever; as_str() always shows the remaining ones. A default Drain has nothing to yield.", "quantifier": "every drained text and every finite interleaving of next and next_back", "why_tests_cant": "interleavings are unbounded.", "anchors": ["src/drain.rs:Iterator", "src/drain.rs:DoubleEndedIterator", "src/drain.rs:FusedIterator", "src/drain.rs:as_str", "src/drain.rs:Default"]}
{"id": "C26", "title": "replace_range", "statement": "s.replace_range(a..b, t), unless a and b (each at most usize::MAX) are equal and t is empty (then Ok, unchanged): OutOfBounds if a > b, b > len() or t.len() > capacity; else Utf8 if a or b is inside a character; else OutOfBounds if the result exceeds the capacity; else the text becomes prefix(a) ++ t ++ suffix(b). Every failure leaves s unchanged.", "quantifier": "every s, range, t", "why_tests_cant": "all ranges, sizes and overlaps of the in-place move.", "anchors": ["src/arraystring.rs:replace_range"]}
{"id": "C27", "title": "Range bounds of every kind are resolved without overflow", "statement": "For drain and replace_range, Included/Excluded/Unbounded start and end bounds denote the same byte range as for std slices, with usize::MAX inclusive ends and excluded starts handled without overflow (rejected as OutOfBounds rather than wrapping; the one exception is replace_range(usize::MAX..=usize::MAX, \"\"), whose saturated ends are equal, and which is Ok and changes nothing).", "quantifier": "every pair of bounds with any usize values", "why_tests_cant": "2^64 values per bound.", "anchors": ["src/arraystring.rs:drain", "src/arraystring.rs:replace_range"]}
{"id": "C28", "title": "Equality is text equality", "statement": "Two strings of equal capacity compare equal iff their texts are equal, irrespective of the history that produced them (bytes past the length never matter); comparing with a str is the same; equality is reflexive, symmetric, transitive.", "quantifier": "every pair/triple of strings reachable by any histories", "why_tests_cant": "stale bytes depend on history.", "anchors": ["src/implementations.rs:PartialEq", "src/implementations.rs:Eq"]}
{"id": "C29", "title": "Hash agrees with equality and with str", "statement": "Equal strings feed identical byte sequences to any Hasher, and the sequence is the one str feeds for the same text, so Borrow<str> keyed lookups work; different texts feed different sequences, also when followed by other fields.", "quantifier": "every string, every hasher", "why_tests_cant": "hashers and histories are arbitrary.", "anchors": ["src/implementations.rs:Hash", "src/implementations.rs:Borrow<str>"]}
{"id": "C30", "title": "Ordering is the code point order of the texts", "statement": "cmp/partial_cmp is the total lexicographic order of the texts by Unicode scalar value (same as str), consistent with equality, antisymmetric and transitive.", "quantifier": "every pair/triple of strings", "why_tests_cant": "all pairs of texts.", "anchors": ["src/implementations.rs:Ord", "src/implementations.rs:PartialOrd"]}
{"id": "C31", "title": "fmt::Write is all-or-nothing per piece", "statement": "write_str(t) appends t entirely or returns Err leaving the string unchanged; a write! producing any sequence of pieces stops at the first piece that does not fit, the string then holding the old text followed by exactly the pieces before it.", "quantifier": "every string and every sequence of pieces", "why_tests_cant": "piece sequences are unbounded.", "anchors": ["src/implementations.rs:Write"]}
{"id": "C32", "title": "Display writes exactly the text", "statement": "Formatting with {} emits exactly as_str(); writing it into another ArrayString of sufficient capacity reproduces the text. Width, fill, alignment and precision of the caller's format spec have no effect (unlike str: refuted parity).", "quantifier": "every string, every formatter options", "why_tests_cant": "all texts and options.", "anchors": ["src/implementations.rs:Display"]}
{"id": "C33", "title": "Extend appends the longest fitting prefix", "statement": "s.extend(chars) / extend(&chars) / extend(strs) appends the longest prefix, in whole characters, of the concatenated input that fits the free space.", "quantifier": "every s, every finite input", "why_tests_cant": "unbounded inputs; double truncation (temporary string then append) must compose.", "anchors": ["src/implementations.rs:Extend<char>", "src/implementations.rs:Extend<&char>", "src/implementations.rs:Extend<&str>"]}
{"id": "C34", "title": "Add appends, truncating", "statement": "s + t equals s after push_str_truncate(t): old text followed by the longest fitting whole-character prefix of t.", "quantifier": "every s, t", "why_tests_cant": "unbounded t.", "anchors": ["src/implementations.rs:Add"]}
{"id": "C35", "title": "Index returns exactly the requested slice or panics", "statement": "s[r] for every u8 range type returns the text bytes in r when both ends are character boundaries in order and within len(), and panics otherwise; it never returns anything else. (An inclusive range that has been iterated to its end counts as if it had not, unlike for str.)", "quantifier": "every string, every u8 range of each of six types", "why_tests_cant": "all ranges.", "anchors": ["src/implementations.rs:Index"]}
{"id": "C36", "title": "IndexMut / as_mut_str edits stay inside the slice", "statement": "Mutating s through a &mut str obtained from as_mut_str, deref_mut, borrow_mut or s[r] with any operation that keeps the slice valid UTF-8 and its length changes exactly that slice; text outside, len() and validity are preserved.", "quantifier": "every string, range, and same-length valid replacement", "why_tests_cant": "all edits.", "anchors": ["src/implementations.rs:AsMut<str>", "src/implementations.rs:IndexMut", "src/implementations.rs:DerefMut", "src/implementations.rs:BorrowMut", "src/arraystring.rs:as_mut_str"]}
{"id": "C37", "title": "CacheString behaves as ArrayString<63>", "statement": "Every CacheString constructor, method and trait gives the same result and text as the same call on ArrayString<63>, and its capacity is 63.", "quantifier": "every history of calls", "why_tests_cant": "histories are unbounded.", "anchors": ["src/lib.rs:CacheString"]}
{"id": "C38", "title": "serde: serialise then deserialise is the identity for borrowing formats; oversize input truncates", "statement": "Serialising emits the text as a str. Deserialising a borrowed str yields its longest fitting prefix, so for formats that hand back the borrowed text the round trip is the identity. Input that the format cannot lend (e.g. a JSON string with escapes) is rejected, unlike String: parity refuted.", "quantifier": "every string, every format modelled as a codec", "why_tests_cant": "all texts.", "anchors": ["src/integration.rs:Serialize", "src/integration.rs:Deserialize"]}
{"id": "C39", "title": "diesel: to_sql then from_sql is the identity; oversize column values truncate", "statement": "to_sql emits the text as a str; from_sql yields the longest fitting prefix of the column text, hence the round trip through a text column is the identity.", "quantifier": "every string, every backend modelled as a text codec", "why_tests_cant": "all texts.", "anchors": ["src/integration.rs:FromSql", "src/integration.rs:ToSql"]}
{"id": "C40", "title": "Memory footprint", "statement": "size_of::<ArrayString<N>>() is N+1 and size_of::<CacheString>() is 64 with alignment 64; it has room for 63 bytes of text and no padding. MaxString has the largest capacity that is allowed and takes 256 bytes. The doc claim that SmallString has the size of String is false (it is one byte larger): refuted.", "quantifier": "every N in 1..=255, 32 and 64 bit targets", "why_tests_cant": "every capacity.", "anchors": ["src/arraystring.rs:ArrayString", "src/lib.rs:CacheString", "src/lib.rs:SmallString", "src/lib.rs:MaxString"]}
{"id": "C41", "title": "Error values convert, compare, hash and print faithfully", "statement": "Converting Utf8/Utf16/OutOfBounds (and std UTF errors) into Error keeps the kind; Error equality is an equivalence that distinguishes the kinds; hashing agrees with it; Display texts are distinct per kind.", "quantifier": "all error values", "why_tests_cant": "must hold for all pairs/hashers; small but relied on by match arms.", "anchors": ["src/error.rs:Error", "src/error.rs:Utf8", "src/error.rs:Utf16", "src/error.rs:OutOfBounds"]}
{"id": "C42", "title": "Truncating char constructors terminate on infinite iterators", "statement": "from_chars_truncate, collect::<_>() and extend over chars or references to chars stop after finitely many pulls (at most capacity + 1) even when the iterator never ends; extend does so before it looks at the free space, so characters it has pulled may be lost. Over strs the same holds when all pieces are non-empty, and an endless supply of one text fills the free space with it; an endless supply of empty pieces makes it loop forever.", "quantifier": "every iterator, finite or infinite", "why_tests_cant": "infinite inputs cannot be run to completion by a test.", "anchors": ["src/arraystring.rs:from_chars_truncate", "src/arraystring.rs:from_iterator_truncate", "src/implementations.rs:Extend"]}
{"id": "C43", "title": "User callback panics leave the string intact", "statement": "If the predicate given to retain or the iterator given to extend panics at any point, the string is as it was before, stale bytes included.", "quantifier": "every string, every panic point", "why_tests_cant": "every crash point.", "anchors": ["src/arraystring.rs:retain", "src/implementations.rs:Extend"]}
{"id": "C44", "title": "len and is_empty agree with the text", "statement": "len() is the sum of the UTF-8 lengths of the characters of as_str(); is_empty() iff as_str() == \"\"; clear() makes it empty; new()/default() are empty; capacity() is N and never changes.", "quantifier": "every reachable string", "why_tests_cant": "all texts.", "anchors": ["src/arraystring.rs:len", "src/arraystring.rs:clear", "src/arraystring.rs:new", "src/arraystring.rs:capacity", "src/implementations.rs:Default"]}
{"id": "C45", "title": "Documented Utf8 error is skipped for empty insertions", "statement": "The docs say try_insert_str / insert_str_truncate return Utf8 if idx is not a character position; the code returns Ok when the (truncated) inserted text is empty, and replace_range accepts any out-of-range empty range with empty text. Refuted by witnesses and characterised exactly.", "quantifier": "every s, index", "why_tests_cant": "exact characterisation over all inputs.", "anchors": ["src/arraystring.rs:try_insert_str", "src/arraystring.rs:insert_str_truncate", "src/arraystring.rs:replace_range"]}
{"id": "C46", "title": "Inverse laws", "statement": "pop after a successful try_push returns the pushed character and restores the text; remove(i) after a successful try_insert(i,c) returns c and restores it; appending split_off's result restores the text; re-inserting a drained range at its start restores the text.", "quantifier": "every s and arguments for which the first call succeeds", "why_tests_cant": "all texts and positions.", "anchors": ["src/arraystring.rs:try_push", "src/arraystring.rs:pop", "src/arraystring.rs:try_insert", "src/arraystring.rs:remove", "src/arraystring.rs:split_off", "src/arraystring.rs:drain"]}
{"id": "C47", "title": "Agreement with std String, and the exact difference where there is one", "statement": "For every operation with a std String counterpart: if the String operation returns and its result fits the capacity, the ArrayString call succeeds with the same text and value. If the result does not fit, the call fails with OutOfBounds and changes nothing (fmt::Error for fmt::Write, with the pieces before the one that does not fit written); the truncating calls keep the longest beginning of the result that fits, and insert_str_truncate the longest beginning of what is inserted. If the String operation panics because of an index, the call returns Err instead (except the empty-insert cases of C45). If it panics because an iterator or predicate of the caller does, the call panics too but leaves the text as it was (String keeps what extend was given before the panic, and only what retain accepted before it), unless what the iterator yields before does not fit: then the call behaves as if there were no panic. Invalid UTF-16 is reported by both, unless the characters before it do not fit.", "quantifier": "every operation, string and argument", "why_tests_cant": "parity tests cover eight literals.", "anchors": ["tests/string_parity.rs", "src/arraystring.rs:impl ArrayString"]}
{"id": "C48", "title": "Adversarial AsRef cannot break the invariants", "statement": "from_iterator_truncate calls as_ref twice on an item; even if the two calls return different strs the result is valid UTF-8 and within capacity.", "quantifier": "every pair of answers", "why_tests_cant": "adversarial implementations are arbitrary.", "anchors": ["src/arraystring.rs:from_iterator_truncate"]}
{"id": "C49", "title": "truncate_str finds the boundary within three steps", "statement": "For any str and size, truncate_str returns the longest whole-character prefix of at most size bytes; the unrolled loop never underflows and never cuts a character.", "quantifier": "every str, every size", "why_tests_cant": "all strings and sizes.", "anchors": ["src/utils.rs:truncate_str"]}
{"id": "C50", "title": "Copies are independent", "statement": "After copying or cloning a string, operations on either copy do not affect the other's text, and the clone is equal to the original.", "quantifier": "every string and history", "why_tests_cant": "histories are unbounded.", "anchors": ["src/arraystring.rs:ArrayString(Copy, Clone)", "src/drain.rs:Clone"]}
{"id": "C51", "title": "Debug shows the text and never stale bytes", "statement": "What {:?} and {:#?} print for a string (also inside Drain and CacheString) is a function of its text only: two strings with the same text print the same whatever their histories, and the plain form is ArrayString { array: <text as str Debug>, size: <len> }.", "quantifier": "every pair of strings with equal text, every formatter and options", "why_tests_cant": "the buffer keeps bytes of earlier, longer texts; only a statement over all histories rules out that they leak into the output", "anchors": ["src/implementations.rs: Debug for ArrayString", "src/drain.rs: Debug for Drain", "src/lib.rs: Debug for CacheString"]}
{"id": "C52", "title": "The text functions underneath are right down to their masks and shifts", "statement": "The functions of core on which the crate's handling of text rests, written as in core's source with masks, shifts, tables and unchecked unwraps, agree with the Unicode definitions for every input: from_utf8 accepts exactly the encodings of texts; chars() and char_indices() give the characters (and offsets) from both ends in any mixture of calls, without undefined behaviour; is_char_boundary, len_utf8, encode_utf8, is_whitespace and decode_utf16 are exact; an overlapping ptr::copy moves the bytes as if read first.", "quantifier": "every byte sequence, text, character, sequence of 16-bit units, and mixture of next/next_back calls", "why_tests_cant": "byte sequences, texts and call sequences are unbounded; tests on some characters leave masks and table entries for others unchecked", "anchors": ["src/implementations.rs:AsRef<str>", "src/arraystring.rs:trim", "src/arraystring.rs:pop", "src/arraystring.rs:remove", "src/utils.rs:is_char_boundary", "src/arraystring.rs:replace_range"]}
{"id": "C53", "title": "The logs feature changes nothing, unless the logger does not return", "statement": "With the logs feature on and no level enabled, calls do exactly what they do with the feature off and leave the rest of the world alone; whatever is enabled, they change the world only through the logger. With any logger that returns, every history of calls has the same outcomes and leaves the same bytes as with the feature off, whatever levels are enabled, with and without debug assertions, even though messages are formatted by calls that log again. If the logger panics, a call either behaves as without the feature or panics, never is undefined behaviour itself, and leaves the string in one of exactly described states: appends, reads, constructors, truncate, pop, clear, retain and split_off always leave a valid text; an edit inside the text (remove, insert, drain, replace_range, trim) may leave the new bytes with the old length, which is invalid UTF-8 exactly if the shorter length is not a character boundary of the longer text. The claim that the string stays valid whatever the logger does is false: a witness is given after which as_str is undefined behaviour.", "quantifier": "every logger (any state, any enabled levels, returning, panicking or looping), every history of calls, every string and capacity", "why_tests_cant": "a logger is arbitrary code run at some thirty statements inside the methods; the broken state exists only if it unwinds at one point between two statements of replace_range", "anchors": ["src/arraystring.rs:replace_range", "src/arraystring.rs:len", "src/lib.rs: trace!/debug! macros", "src/utils.rs:is_char_boundary", "src/error.rs: From impls"]}
{"id": "C54", "title": "The unsafe writes obey the aliasing rules", "statement": "Under Stacked Borrows and under Tree Borrows, replace_range (which copies through a raw pointer while still calling methods of self, with a protected &mut self and a protected text argument) and as_mut (which builds the &mut str it returns from unsafe functions) never read or write a byte through a reference or pointer that may no longer be used. Any sequence of replace_range, as_mut_str with an edit, and as_str calls through a usable &mut ArrayString has the outcomes and leaves the text of the specification, and leaves the caller's references usable; the &mut str returned by as_mut may be read and written any number of times anywhere in the text, and under Stacked Borrows using it on any other byte of the string is undefined behaviour (nothing is claimed about this under Tree Borrows). The rules are those of Model/Borrow, whose known differences from the published ones are listed in DESIGN.md section 6.", "quantifier": "every capacity, string, range, text, sequence of calls and of accesses, and every state of the stacks/trees of the memory in which the caller's reference may be written through", "why_tests_cant": "a run shows the bytes, not whether the optimiser was promised that they do not change; Miri checks the states of the runs it sees, not all of them", "anchors": ["src/arraystring.rs:replace_range", "src/implementations.rs:AsMut<str>", "src/implementations.rs:AsRef<str>", "src/implementations.rs:AsRef<[u8]>", "src/utils.rs:is_char_boundary"]}
{"id": "C55", "title": "Arguments whose as_ref answers differently, panics or does not return", "statement": "An impl AsRef<str> argument is the caller's code: it may answer another text each time it is asked, panic, never return, and change the world. With the feature logs off (or no level enabled), try_push_str, push_str_truncate, replace_range, insert_str_truncate, try_from_str and from_str_truncate ask it exactly once and act as with that &str; try_insert_str does so too, or fails without asking when the index is past the end; if the argument does not return, the string is as it was. With the feature on and a logger that returns, messages ask too, and each of these calls acts as with one single text among those the argument answers, never a mixture, or is cut short by the argument with the string as it was. try_from_iterator and from_iterator_truncate use one answer of each item, in order, until one does not fit (from_iterator_truncate asks that one again); with the feature off no item is asked more often than that, and nothing else happens to the world. No argument written in safe code can bring about undefined behaviour or an invalid string. The claim that an argument is asked once is false with the feature on: try_push_str asks four times and appends the second answer.", "quantifier": "every argument (any function of the state of the world), every logger that returns, every string, capacity, range and index, every sequence of items", "why_tests_cant": "the argument is arbitrary code called at several points of each method; a test fixes one behaviour of it, while a length check made with one answer and a copy made with another would go wrong only for an argument that changes in between", "anchors": ["src/arraystring.rs:replace_range", "src/arraystring.rs:try_push_str", "src/arraystring.rs:push_str_truncate", "src/arraystring.rs:try_insert_str", "src/arraystring.rs:insert_str_truncate", "src/arraystring.rs:try_from_iterator", "src/arraystring.rs:from_iterator_truncate"]}
{"id": "C56", "title": "Drain works with every iterator method and with any program that uses it", "statement": "Any program that uses a Drain through next, next_back and as_str, deciding what to do next by what it got, gets exactly what it would get from a double-ended queue of the drained characters and leaves what would be left, and it goes on for ever only if it would with the queue. In particular core's default methods: try_fold/try_rfold and fold/rfold (so for loops) give the closure the characters in order and, when stopped or when the closure panics, leave those not given yet; count, last, collect to Vec<char> or String, rev; nth/nth_back and advance_by/advance_back_by remove n characters or all; all, any, find/rfind and position remove the characters up to the deciding one; reduce, max and min; size_hint is (0, None).", "quantifier": "every text, every program (any state machine, also one that never stops), every closure including panicking ones, every n, both ends", "why_tests_cant": "programs and closures are arbitrary and the interleaving of ends adapts to the answers; tests fix a few", "anchors": ["src/drain.rs:Iterator", "src/drain.rs:DoubleEndedIterator", "src/drain.rs:as_str"]}
{"id": "C57", "title": "Every call obeys the aliasing rules", "statement": "Under Stacked Borrows and under Tree Borrows, with a tag on every reference that the code makes (two-phase borrows of self, protected arguments, closures holding &mut self.size, raw pointers, references to local strings and buffers), no call of the kinds that occur in the histories of C03 (the constructors, the methods, and the traits in Spec.Op) ever reads or writes a byte through a reference or pointer that may no longer be used. Any history of the calls of C03 through a usable &mut ArrayString, with the texts behind a usable &str, gives the answers and leaves the text of the specification and leaves both references usable, also when calls fail or panic. A single call on any bytes, valid UTF-8 or not, does with tags exactly what it does without. The rules are those of Model/Borrow, whose known differences from the published ones are listed in DESIGN.md section 6.", "quantifier": "every capacity, string, history of calls, and every state of the stacks/trees of the memory in which the caller's &mut may be written through and their &str read through", "why_tests_cant": "a run shows the bytes, not whether the optimiser was promised that they do not change; Miri checks the states of the runs it sees, not all of them", "anchors": ["src/arraystring.rs:ArrayString", "src/implementations.rs", "src/drain.rs:Drain", "src/utils.rs"]}
{"id": "C58", "title": "The accesses of a call cover what it uses", "statement": "The model of C57 says of every call which bytes of the string it reads and writes, through which references. None of these accesses is missing: after any history of calls without undefined behaviour, a byte of the string (of the array or the size) that has changed has been written by one of the recorded accesses, and the results of the calls, the tags they use and the bytes they write depend on bytes only that recorded accesses have read. That is, if another string of the same capacity has the same bytes where the history reads, then the history gives the same results on it, uses tags the same way, and leaves the same bytes at every address that it wrote or where the two strings agreed. For one call this is also proved of the plain model, under Stacked Borrows and under Tree Borrows: the recorded accesses cover what the call does without tags. The same holds of the texts passed to the calls: if the texts are replaced by others of the same lengths, with the same bytes where the history reads its text argument, then the results, the string and the tags are the same. Recording the accesses changes nothing else.", "quantifier": "every capacity, rules, state of memory, bytes in the string (valid UTF-8 or not), other string, other texts, and history of calls", "why_tests_cant": "it compares each run with every run on a string that differs in unused bytes, and it is about accesses, which a run does not show", "anchors": ["src/arraystring.rs:ArrayString", "src/implementations.rs", "src/drain.rs:Drain", "src/utils.rs"]}
{"id": "C59", "title": "References kept by the caller", "statement": "A program, with branches and loops that depend on what it sees and possibly endless, has a &mut ArrayString, makes calls through it and keeps references that it gets: &ArrayString, &str (as_str, indexing), &[u8] (as_ref), &mut str (as_mut_str, IndexMut), parts of a &mut str, and &str made from a &mut str, any number of them, nested and used in any order. If the program follows the rule of the borrow checker (a use of the string or of a &mut str as mutable ends what was made from it before, a use as shared ends the mutable borrows made from it), then under Stacked Borrows and under Tree Borrows no statement is undefined behaviour, every call has the answer and the effect of C03, an edit through a &mut str changes exactly the text it stands for, a &str or &[u8] shows the bytes there were when it was made, whatever calls were made meanwhile, and the references of the caller stay usable. Indexing out of bounds panics and leaves everything else usable.", "quantifier": "every capacity, state of memory, text, and program of calls and uses of references that the borrow checker accepts on all paths", "why_tests_cant": "programs are unbounded and combine any number of references; aliasing violations do not show in a run", "anchors": ["src/arraystring.rs:ArrayString::as_str", "src/arraystring.rs:ArrayString::as_mut_str", "src/implementations.rs:Index", "src/implementations.rs:IndexMut", "src/implementations.rs:AsRef"]}
{"id": "C60", "title": "Threads that share a string", "statement": "A call that takes &self writes nothing: under any aliasing rules it is a sequence of steps that make shared references, read, and end protectors, and a thread that is not interrupted does what its calls do one after the other, undefined behaviour included. Any number of threads that make any calls with &self through one &ArrayString, each call broken into these steps and every read into single bytes, have, in whatever order their steps come, no undefined behaviour under Stacked Borrows and under Tree Borrows; each call has the answer of C03, also when it panics, and the string stays as it was. If every thread gets its turn again and again, all of them end; when all have ended, the &mut of the caller may be used again.", "quantifier": "every capacity, state of memory, text, number of threads, list of calls for each, and order of their steps, finite or endless", "why_tests_cant": "the orders of steps are unbounded in number and a run shows one; aliasing violations do not show in a run", "anchors": ["src/arraystring.rs:ArrayString::as_str", "src/arraystring.rs:ArrayString::len", "src/arraystring.rs:ArrayString::is_empty", "src/implementations.rs:AsRef", "src/implementations.rs:Index", "src/implementations.rs:Display", "src/implementations.rs:Hash", "src/implementations.rs:PartialEq"]}
{"id": "C61", "title": "Every call of a CacheString obeys the aliasing rules", "statement": "C57 for CacheString: under Stacked Borrows and under Tree Borrows, with a tag on every reference that its own methods, Deref, DerefMut and the ArrayString inside make, no call of the kinds that occur in the histories of C37 reads or writes a byte through a reference that may no longer be used. Any history of them through a usable &mut CacheString, with the texts behind a usable &str, gives the answers and leaves the text of a bounded string of 63 bytes and leaves both references usable, also when calls fail or panic. A single call on any bytes, valid UTF-8 or not, does with tags exactly what it does without, and so does an edit of the text through as_mut or borrow_mut.", "quantifier": "every CacheString, history of calls, and every state of the stacks/trees of the memory in which the caller's &mut may be written through and their &str read through", "why_tests_cant": "aliasing violations do not show in a run; Miri checks the states of the runs it sees, not all of them", "anchors": ["src/lib.rs:CacheString", "src/lib.rs:Deref", "src/lib.rs:DerefMut"]}
{"id": "C62", "title": "The aliasing rules are also kept with the end of a protector as in Miri", "statement": "In the Tree Borrows of C54, C57 and C59 to C61 the end of a protected reference counts as an access that reaches all other references, also those made from it. In Miri it does not reach those. The properties hold for that version too: any history of calls on an ArrayString or a CacheString gives the answers and the text it should, without undefined behaviour, and leaves the caller's references usable; a single call on any bytes does with tags what it does without; the reference returned by as_mut may be used at any place of the text; a program that keeps references, with branches and loops, and that the borrow checker accepts sees what it should; threads that share a string find what they would find alone, in any order of their steps.", "quantifier": "every capacity, string, history of calls, program accepted by the borrow checker, schedule of threads, and every state of the trees of the memory in which the caller's &mut may be written through and their &str read through", "why_tests_cant": "aliasing violations do not show in a run; Miri checks the states of the runs it sees, not all of them", "anchors": ["src/arraystring.rs:replace_range", "src/implementations.rs:AsMut<str>", "src/lib.rs:CacheString"]}
{"id": "C63", "title": "Debug prints the text exactly, escaped, and the output determines the text", "statement": "For every string and all formatting options ({:?}, {:#?}, {:x?}, {:#X?}, width, fill, zero padding, sign), what Debug prints for an ArrayString, and for a Drain or CacheString around one, is exactly this: the text in quotes with \\0 \\t \\r \\n \\\\ \\\" and \\u{hex} escapes where needed, and the length as a number formatted with these options, in the struct layout (indented with #). The calls made to the sink are writes of consecutive parts of this output up to the first one that fails. Strings of whatever capacities that print the same hold the same text. Nothing but visible ASCII and characters the Unicode tables call printable and not grapheme-extending is in the quoted text. Printed into another ArrayString by write!, all of it is there, or there is an error and a beginning of it.", "quantifier": "every capacity, text, set of options, sink (failing or panicking at any time), and every content of the two Unicode tables", "why_tests_cant": "the escaping depends on every character and on where runs of plain ASCII begin and end; that the output can be read back is about all pairs of texts", "anchors": ["src/implementations.rs: Debug for ArrayString", "src/drain.rs: Debug for Drain", "src/lib.rs: Debug for CacheString"]}
{"id": "C64", "title": "Strings of different capacities and CacheStrings work together as texts", "statement": "A program with any number of variables, each an ArrayString of its own capacity or a CacheString, that calls every method of the API on them, hands texts of some to methods of others (try_push_str, insert_str, eq, extend with several, constructors, ...), prints one into another, copies and compares those of the same type, splits and drains one into another, and converts between ArrayString<63> and CacheString, gives the answers and ends with the texts of the same program on plain texts, each bounded by the capacity of its variable: what does not fit in a target is an error that changes nothing or is cut after a whole character, as the call says, by the capacity of the target and not of the source. Variables that a statement does not assign stay the same to the last byte. The answer of a statement, and what it assigns, depends only on the texts it names. A text goes through any chain of variables that have room for it unchanged.", "quantifier": "every assignment of types to variables, program, initial texts and stale bytes", "why_tests_cant": "capacities are type parameters: tests fix a few pairs; programs are unbounded", "anchors": ["src/arraystring.rs", "src/implementations.rs", "src/drain.rs", "src/lib.rs: CacheString"]}
{"id": "C65", "title": "The repository's own tests, for every text", "statement": "Each test of tests/string_parity.rs compares a call on ArrayString<255> with the same call on String (equal value and text, or a panic or error of String matched by an error) on eight texts. With any text in place of these, any capacity, and any index, character, predicate or change of the UTF-16 units in place of the ones in the file, a test passes exactly if the text meets a condition given for it: what it adds fits, and for insert_str at an index inside a character, that the first character of the text fits. The whole file passes on a text exactly if the text fits twice, and once with four more bytes; with capacity 255, if it has at most 127 bytes. The eight texts have. A text of 255 bytes shows the difference the test of insert_str misses: String panics and ArrayString succeeds.", "quantifier": "every text, capacity, index, character, predicate and change of units", "why_tests_cant": "the tests are eight texts and one index; this is for which of all others they would pass", "anchors": ["tests/string_parity.rs:assert", "tests/string_parity.rs:invalidate_utf16", "src/arraystring.rs:insert_str_truncate", "src/arraystring.rs:try_insert_str", "src/arraystring.rs:drain", "src/arraystring.rs:from_utf16_lossy_truncate"]}
{"id": "C66", "title": "Every call computes only with bytes it may read", "statement": "Write every call as a sequence of loads and stores on memory, each through a tagged reference, in which the only access of the call to the contents of the string or of a text argument is what it loads, and the only change is what it stores. From memory whose bytes are the UTF-8 of a text, followed by anything, with the length in the size byte, any history of calls gives exactly the answers of C03, also errors and panics; afterwards the memory stores exactly the text of C03; no load, store or new reference breaks Stacked Borrows or Tree Borrows (in either version), no str::get_unchecked is asked to cut inside a character or out of range, and the caller may go on using its references. No byte beyond the string and the texts has changed, and a text given to a call is as it was.", "quantifier": "every capacity 1..=255, every contents of memory that stores a text, every finite history of calls, every argument and callback", "why_tests_cant": "a run shows the bytes of one memory; that no call depends on bytes it has not read through a reference that allows it, for all memories and histories, is a statement about all runs", "anchors": ["src/arraystring.rs:replace_range", "src/arraystring.rs:retain", "src/arraystring.rs:drain", "src/arraystring.rs:try_push", "src/utils.rs:truncate_str", "src/utils.rs:is_char_boundary", "src/implementations.rs:as_ref", "src/implementations.rs:as_mut"]}
{"id": "C67", "title": "Every call of a CacheString computes only with bytes it may read", "statement": "C66 for CacheString: with a tag on every reference, also those that its own methods, Deref and DerefMut make, each call is a sequence of loads and stores on memory in which it sees the contents of the string or of a text only by loading them and changes them only by storing. From memory that stores a text of at most 63 bytes, any history of calls gives exactly the answers of a bounded string of 63 bytes, also errors and panics; the memory then stores exactly its text; no load, store or new reference breaks Stacked Borrows or Tree Borrows (in either version), the caller may go on using its references, no byte beyond the string and the texts has changed, and a text given to a call is as it was.", "quantifier": "every contents of memory that stores a text, every finite history of calls, every argument and callback", "why_tests_cant": "a run shows the bytes of one memory; that forwarding through Deref and through the wrapper's own methods never reads or writes through a reference that does not allow it, for all memories and histories, is a statement about all runs", "anchors": ["src/lib.rs:deref", "src/lib.rs:deref_mut", "src/lib.rs:split_off", "src/lib.rs:try_from_str", "src/lib.rs:from_str_truncate", "src/lib.rs:write_str", "src/lib.rs:index", "src/lib.rs:index_mut"]}
{"id": "C68", "title": "Several strings in memory: comparing, copying and printing compute only with bytes they may read", "statement": "A program has a string that it may change through a &mut and others, anywhere behind one shared reference, that it may only read. PartialEq, Ord, PartialOrd and what these traits provide (ne, lt, le, gt, ge) between any two of them, also between a string and itself, Clone, assigning a copy to its own string, Debug, Serialize and ToSql (whose reference is used after the call) are sequences of tagged loads and stores on bytes. Any sequence of these, with any calls in between that change its own string, tells exactly what the texts tell: equality, the order of the code points, the text and its length; its own string stores the text that it should. No load, store or new reference breaks Stacked Borrows or Tree Borrows (in either version), the program may go on using its references, no byte outside its own string changes, and what only looks changes no byte at all.", "quantifier": "every memory in which the strings store texts, every placement of the strings, also overlapping and equal ones, every sequence of statements", "why_tests_cant": "a run compares two given strings in one memory; that no comparison of any two strings reads through a reference that does not allow it or looks beyond a text is a statement about all memories and placements", "anchors": ["src/implementations.rs:eq", "src/implementations.rs:cmp", "src/implementations.rs:partial_cmp", "src/implementations.rs:fmt", "src/integration.rs:serialize", "src/integration.rs:to_sql", "src/arraystring.rs:ArrayString", "src/arraystring.rs:as_str"]}
{"id": "C69", "title": "Several CacheStrings in memory: comparing, copying and printing compute only with bytes they may read", "statement": "C68 for CacheString: a program has a CacheString that it may change through a &mut and others behind one shared reference. PartialEq, Ord, PartialOrd and what these traits provide, also between a string and itself, Clone, assigning a copy, Debug, Serialize and ToSql, each with the references that the trait of CacheString makes before it calls that of the field, and any calls of CacheString without a text in between, tell exactly what the texts tell, and the own string stores the text that it should. No load, store or new reference breaks Stacked Borrows or Tree Borrows (in either version), the program may go on using its references, no byte outside its own string changes, and what only looks changes no byte at all.", "quantifier": "every memory in which the strings store texts of at most 63 bytes, every placement of the strings, also overlapping and equal ones, every sequence of statements", "why_tests_cant": "a run compares two given strings in one memory; that the references through a CacheString never read what they may not, whatever the memory and placement, is a universal statement", "anchors": ["src/lib.rs:eq", "src/lib.rs:cmp", "src/lib.rs:partial_cmp", "src/lib.rs:fmt", "src/integration.rs:serialize", "src/integration.rs:to_sql", "src/lib.rs:CacheString"]}
{"id": "C70", "title": "Calls that take the text of another string compute only with bytes they may read", "statement": "In the programs of C68 and C69 the own string is also changed with the text of another string, or with any text in memory behind the shared reference: try_from_str, parse, from_str_truncate, From<&str>, try_push_str, push_str_truncate, try_insert_str, insert_str_truncate, replace_range, +, write_str and == with a &str. The call is told where the text is and how long it is, not what it says. Any sequence of such calls and of the statements of C68 (C69 for CacheString) tells exactly what the texts tell, and the own string stores the text that it should. No load, store or new reference breaks Stacked Borrows or Tree Borrows (in either version), the program may go on using its references, and no byte outside the own string changes, so the others keep their texts. With the text right behind the own string these are the calls of C66 and C67.", "quantifier": "every memory in which the strings store texts, every placement of strings and texts, also overlapping ones, every sequence of statements; ArrayString of every capacity, and CacheString", "why_tests_cant": "a run passes one text at one address; that no call looks beyond a text of any length at any address, or writes to it, is a statement about all memories", "anchors": ["src/arraystring.rs:as_str", "src/arraystring.rs:try_from_str", "src/arraystring.rs:from_str_truncate", "src/arraystring.rs:try_push_str", "src/arraystring.rs:push_str_truncate", "src/arraystring.rs:try_insert_str", "src/arraystring.rs:insert_str_truncate", "src/arraystring.rs:replace_range", "src/implementations.rs:from_str", "src/implementations.rs:add", "src/implementations.rs:write_str", "src/implementations.rs:eq", "src/lib.rs:CacheString"]}
{"id": "C71", "title": "pop, trim, remove, retain and drain decode the text byte by byte and look only where they must", "statement": "With pop, trim, remove, retain and the iterator of drain decoding the text as core's Chars and CharIndices do, one byte after the other through a reference to that byte, the next place depending on the bytes before, any sequence of calls on memory that stores a text gives the answers of the text and stores the text that it should; also when calls fail or panic. No access breaks Stacked Borrows or Tree Borrows (in either version), no unchecked step of the decoder runs out of bytes or makes an invalid character, the references of the program stay usable and no byte beyond the string and the texts changes. pop looks for its character at exactly the bytes of the last character, from the end; remove at exactly those of the one it removes, and each turn of retain at those of the next one; the two loops of trim at exactly the white space and the one character that stops them, or, of white space alone, the first at every byte once and the second at the last character; in an empty text nowhere. A scan changes no byte, and no tag of a byte it does not look at, and what it finds does not depend on such bytes, be they UTF-8 or not. The same holds for CacheString, whose methods do this after deref_mut. A program that lends its memory once cannot tell these calls from those of C66 and C67, which load the whole text first.", "quantifier": "every capacity and CacheString, every memory that stores a text, every sequence of calls; for the places looked at, every text and all bytes around it", "why_tests_cant": "a decoder that reads one byte too many gives the right answers in every test, and one that trusts a cut-off character does so in all runs where none occurs", "anchors": ["src/arraystring.rs:pop", "src/arraystring.rs:trim", "src/arraystring.rs:remove", "src/arraystring.rs:retain", "src/arraystring.rs:as_str", "src/drain.rs:next", "src/drain.rs:next_back", "src/lib.rs:CacheString"]}
