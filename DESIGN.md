# Formal model of paulocsanz/arraystring in Lean 4

Contents: 1 how the code is modelled, 2 modules, 3 plan and proof method per property, 4 disagreements between the
documentation and the code, 5 what is and is not modelled, 6 simplifications, 7 trusted base, 8 mutation testing.

## 1. How the code is modelled

### Execution model (`Model/Rust.lean`)
A method `fn f(&mut self, ..) -> Result<T, E>` becomes `M (ArrayString N) E T`, i.e.
`ArrayString N → Res E T × ArrayString N`, where

    Res E T = ok t | err e | panic | ub | diverge

* `err` is Rust's `Err`; `panic` is an overflow, a failed assertion, a failed bounds check or a panic of the caller's own
  closure / iterator; `ub` is an unsafe operation used outside its contract (`ptr.add`/`ptr::copy` out of bounds,
  `get_unchecked` out of range or off a boundary, `from_utf8_unchecked` on invalid bytes); `diverge` is a loop that never ends.
* The state is returned in every case, so "the string after the failure" and "the string when the panic unwinds" can be
  talked about.
* Loops whose termination is not structural (`while` in `remove`, `for` over a caller's iterator) are defined with
  `partial_fixpoint` over the flat order with bottom `diverge`; termination is a theorem, not an assumption.
* `usize` is `Nat` with explicitly checked `+`/`-` and saturating `+`. `usizeMax` is `2^16-1`, `2^32-1` or
  `2^64-1`, left open (`width` is an opaque constant of a type with three values; no axiom is involved). `u8` is `UInt8`;
  `as u8` wraps.
* The build profile is left open in the same way (`profile`, an opaque constant of two Booleans). With `overflow-checks` a
  `+`/`-` out of range gives `panic`, without it wraps; with `debug-assertions` a failing `debug_assert!` gives `panic`, without
  it does nothing. What is proved therefore holds of debug and release builds and the two mixed ones.
* `[u8; N]` is a byte list of length exactly `N`; the bytes beyond `size` are kept (stale data), so the value of a string
  depends on its history and theorems have to say that it does not matter.
* A `str` argument is its byte list; theorems instantiate it with `utf8 cs` for an arbitrary `cs : List Char`. Rust
  guarantees every `&str` to be valid UTF-8, and Lean's `Char` is exactly a Unicode scalar value, as Rust's `char`.
* Everything unsafe is modelled at the level of bytes: `replace_range` copies bytes with bounds checks whose failure is `ub`;
  UTF-8 decoding in `pop`, `remove`, `chars()` is modelled on the bytes, after core's `next_code_point`.

### Specification vocabulary (`Spec/*`)
`utf8 cs` is the concatenation of Lean core's own `String.utf8EncodeChar`. `Holds s cs`: the first `size` bytes of the array
are `utf8 cs` and `size ≤ N`. Property theorems speak about `Holds`, `byteLen`, list append, `LongestFit` (the longest
prefix of whole characters that fits), and about results `ok/err/panic`; the Spec modules import nothing from Model except
the plain data types they have to mention (`Bound`, error values).

`step N op cs` (`Spec/History.lean`) is the abstract bounded string: what each of the 46 calls does to a list of characters.
`exec op s` (`Model/History.lean`) is the code. The refinement theorem `C03_refinement` relates the two for every finite
list of calls, every capacity 1..=255, every argument, every callback. `Spec/Store.lean`, `Model/Store.lean` do the same for
programs over many string variables (of the same capacity) with copies, comparisons and appends between them.

## 2. Modules

| module | contents |
|---|---|
| `Spec/Text, Holds, Trim, Iter, Utf16, Order, Retain, Range, Endless, Deque, Index, Fmt, Debug, DebugStr` | specification vocabulary, each small |
| `Spec/History` | the abstract bounded string, call by call |
| `Spec/Store`, `Spec/Mixed` | the same for several variables; for variables of several types |
| `Spec/StdString` | what std's `String` does for the calls both types have |
| `Spec/Parity`, `Model/Parity` | tests/string_parity.rs: its tests, with the text and constants as parameters; when they pass |
| `Model/Rust` | `Res`, `M`, machine arithmetic, byte slices, raw copies |
| `Model/Str` | the parts of core's `str`/`char` used: boundaries, decoding, encoding, `char_indices`, `trim`, UTF-16 decoding |
| `Model/CoreStr` | the same functions as core's source has them: masks, shifts, signed comparisons, tables, `unwrap_unchecked`, iteration from both ends, `memmove` byte by byte |
| `Model/Error` | src/error.rs |
| `Model/ArrayString` | src/arraystring.rs and src/utils.rs, method by method |
| `Model/Traits` | src/implementations.rs, src/drain.rs |
| `Model/Fmt` | `fmt::Write`, `Formatter`, `debug_struct`/`debug_tuple`, `PadAdapter` for Debug |
| `Model/DebugStr` | core's `Debug` of `str` and `u8`: the loop over plain ASCII, the escapes, `pad_integral` |
| `Model/CacheString` | src/lib.rs `CacheString`, every forwarding method and trait |
| `Model/Integration`, `Model/Json` | src/integration.rs (serde, diesel); serde_json's string syntax |
| `Model/Layout` | size and alignment of structs |
| `Model/History`, `Model/Store`, `Model/Mixed` | calls and programs as data |
| `Spec/Logs`, `Spec/AsRef`, `Model/Logs` | what a logger, or an `impl AsRef<str>`, may do; every method once more with its log statements, in a world the logger can change |
| `Model/DrainIter`, `Spec/DrainIter` | the iterator methods `Drain` gets from core, and any program that uses them; the same served by a queue |
| `Model/Borrow` | Stacked Borrows, Tree Borrows, and `replace_range`, `as_mut`, `as_str` once more with every reference they make, use and give up |
| `Model/BorrowCalls`, `Model/BorrowOps` | the same for the other methods and traits: every call of a history with tags |
| `Model/BorrowCache` | the same for the methods and traits of `CacheString` |
| `Model/BorrowOuter` | Tree Borrows with the end of a protector as in Miri |
| `Model/Footprint` | the same rules, remembering which bytes were read and written |
| `Model/Machine` | the calls once more on nothing but bytes in memory: every byte a method computes with is loaded through a tag, every byte it changes is stored |
| `Model/MachineCache` | the same for `CacheString` |
| `Spec/Several`, `Model/MachineMany` | one string of the program's own and a slice of others in the same memory: the traits on two strings, and the others that only read, as loads |
| `Spec/Lend`, `Model/MachineLend` | calls of the program's own string with a text that is somewhere in memory, given by place, length and reference |
| `Model/MachineChars`, `Model/MachineCacheChars` | core's `Chars` as a computation that asks for one byte after the other, and `pop`, `trim`, `remove`, `retain` and `drain` with it; the same for `CacheString` |
| `Spec/Client`, `Model/Client` | programs that keep references to the string, and the rule of the borrow checker for them; the same with tags |
| `Model/Threads` | the functions with `&self` once more, as steps between which other threads may act |
| `Proofs/*` | lemmas |
| `Tests/Doc` | tests, not theorems: the doc comment examples and tests/string_parity.rs, evaluated in the model |
| `Props/*` | the property theorems `Cnn_*`, each next to a non-trivial `example` meeting its hypotheses |

## 3. Plan and proof method per property

| id | modelled | proof method |
|---|---|---|
| C01 | all mutators and constructors | corollary of C03: every call preserves `∃ cs, Holds s cs`; `C01_every_text` shows every text that fits is reachable |
| C02 | faults (`panic`,`ub`,`diverge`) explicit in the model | corollary of C03; panics come only from the caller's callback, or an `Index` out of range |
| C03 | `Op`, `exec`, `runOps` | simulation: one lemma per call (`exec_step`), then induction over the list of calls |
| C04 | all fallible calls | case analysis per call, equality of the whole state including stale bytes |
| C05-C09, C16-C24, C26, C27 | the method itself | one theorem per method; mutators follow from the theorem of `replace_range` |
| C10-C12, C42, C48 | iterators as state machines (may panic, may be endless, `as_ref` may answer differently each time) | induction on lists, on remaining capacity; `partial_fixpoint` induction for divergence |
| C13-C15 | `decode_utf16` as an iterator | induction on segments; existence and uniqueness of the segmentation |
| C25 | `Drain` as a step function | induction over the interleaving of `next`/`next_back` |
| C28-C30 | comparison, hash as the bytes written | UTF-8 injectivity and monotonicity |
| C31, C32, C51 | `fmt::Write`, a formatter model | induction over pieces |
| C33, C34 | `Extend`, `Add` | composition of longest-prefix lemmas |
| C35, C36 | `Index`/`IndexMut`, mutation through `&mut str` | boundary characterisation |
| C37 | newtype wrapper | per-call equality, then induction over histories |
| C38, C39 | serde/diesel protocol | case analysis on what a format can hand over; JSON string syntax by induction |
| C40 | struct layout | arithmetic, over every layout the reference allows |
| C41 | error.rs | case analysis |
| C43 | callbacks that panic | the state after the panic |
| C44-C46, C49 | | corollaries of the method theorems |
| C45 | early return of `replace_range` | exact characterisation and a refutation of the documented claim |
| C47 | `Spec/StdString` | call by call; exact list of exceptions: results that do not fit, indices that panic, iterators and predicates that panic, invalid UTF-16 |
| C50 | programs over several variables | simulation, frame property |
| C52 | `Model/CoreStr` | per function; bit operations reduced to arithmetic, facts about single bytes decided for all 256 values; induction over calls from both ends, over copied bytes |
| C53 | `Model/Logs` | simulation between the logged and the plain model in which the logged one may also be cut short: reading functions give the plain result or are cut short, mutators besides leave a described state; one lemma per method, then induction over calls |
| C54 | `Model/Borrow` | `Proofs/Borrow`: an interface of laws (which references may be used after what), proved for both sets of rules by induction over stacks and trees; `Proofs/BorrowRun`: the functions follow the laws, phase by phase; then induction over calls |
| C55 | `Model/Logs` with arguments that may do anything | from the simulation of C53 by cases on what the argument answers; `Proofs/LogsWorld` for what happens to the world, by taking each method apart |
| C56 | `Model/DrainIter` | induction over the characters left; for programs that may never finish, fixed point induction in both directions |
| C57 | `Model/BorrowCalls`, `Model/BorrowOps` | the laws of `Proofs/Borrow`; a simulation between each function with tags and the plain one (`Proofs/BorrowCalls`, `Proofs/BorrowOps`), composed like the code; then induction over calls. For the texts `Proofs/FootprintText`: the same with a run on texts that differ in bytes the run does not read (`Like`) |
| C58 | `Model/Footprint` | `Proofs/FootprintErase`: recording changes nothing, one lemma per function; `Proofs/Footprint`, `Proofs/FootprintOps`: a two-run relation (`At`) between a run and the same run on a string that differs in unused bytes, composed like the code; then induction over calls |
| C59 | `Spec/Client`, `Model/Client` | an invariant between statements (`Core`): the mutable references that may be used are a chain above the caller's, the shared ones are side references on the newest; one lemma per statement (`Proofs/ClientRun`); then induction over the program |
| C60 | `Model/Threads` | `Proofs/Threads`: run without a break, the steps are the functions of `Model/BorrowOps`; `Proofs/ThreadsAlone`: so are the steps of a thread which is not interrupted; `Proofs/ThreadsRun`: every step may be taken however the shared references grow in between (`Fine`), one lemma per function; an invariant of all threads together (`Pool`), preserved by each step; that all end is by induction over the steps left |
| C61 | `Model/BorrowCache` | the lemmas of C57, which hold under any references in use below the caller's; `deref_mut` adds two of them (`sim_derefMut`); one lemma per method that `CacheString` has itself (`Proofs/BorrowCache`); C37 for the answers |
| C62 | `Model/BorrowOuter` | the laws from which C54, C57 and C59 to C61 are proved, for one more set of rules (`Tree.lawsOuter` in `Proofs/BorrowOuter`) |
| C63 | `Model/DebugStr` | a calculus of what a function writes whatever the sink is (`Writes` in `Proofs/DebugStr`), closed under sequence and `PadAdapter`; an invariant of the loop of `<str as Debug>::fmt`; the escapes are a prefix code |
| C64 | `Model/Mixed` | programs typed by construction over a dependent store; one lemma per kind of call on a variable of either type (`Proofs/Mixed`), simulation, frame and dependence |
| C65 | `Model/Parity` | C47 and C03: a test passes if `String` returns and its text fits, or `String` panics and this is not an empty insertion (`passes_iff`); then case by case. For the changed UTF-16: what is left of an encoded text after k units (`utf16_drop`) |
| C66 | `Model/Machine` | a simulation (`Sim` in `Proofs/Machine`): where a call of C57 settles on the value of the string, the call on bytes does the same on memory that holds this value and the text of the argument; one lemma per function (`Proofs/MachineReplace`, `MachineCalls`, `MachineMethods`, `MachineOps`); the simulation also says which bytes are left alone (`Keeps`); then C57 and induction over calls |
| C67 | `Model/MachineCache` | the lemmas of C66 under the references that `CacheString` adds; `deref_mut` cannot fail (`Fine`), so the text is placed after it (`simCall_then`); C61 and C37 for the answers |
| C68 | `Model/MachineMany` | `Reads` in `Proofs/MachineMany`: from memory where certain shared references may be read through, a function succeeds, keeps them usable and keeps the bytes; one lemma per function, for any address. `str`'s order is the order up to the shorter length and then of the lengths (`cmp_min`). Between them C66 for calls without a text, which touch no other byte |
| C69 | `Model/MachineCacheMany` | The traits of `CacheString` are a call around those of the field, so each lemma is one step on top of C68; between them C67 for calls without a text |
| C70 | `Spec/Lend`, `Model/MachineLend` | C66 and C67 with the text behind any usable reference (`Borrow.sim_execVia`, `sim_cacheExecVia`), moved to the place where the text is (`window_run`); the references to it by the lemmas of C68 |
| C71 | `Model/MachineChars`, `Model/MachineCacheChars` | a computation that asks for bytes (`Scan`) evaluated on bytes is the decoder of C52, so on UTF-8 it gives the characters (`Proofs/MachineScan`); run on memory it makes shared references and loads, which C57 and C66 allow (`sim_scan`); then as C66, by case for the five methods. What is asked for by induction over the text; that other bytes do not matter by induction over the scan (`scan_leaves`, `scan_blind`). For `CacheString` the same after `deref_mut` |

## 4. Disagreements between documentation and code

Each is a theorem with a concrete witness, next to the exact characterisation of what the code does.

| theorem | claim that is false | what happens |
|---|---|---|
| `C14_refuted` | `from_utf16_truncate` fails on invalid UTF-16 | invalid data after the point where the string is full is never seen |
| `C32_refuted` | `{:10}` pads as it does for `str` | width, fill and precision are ignored |
| `C35_exhausted` | `&s[range]` for an exhausted `RangeInclusive<u8>` | the exhausted flag is dropped on conversion to usize; the range counts as fresh |
| `C38_refuted` | `Deserialize` accepts any string the format holds, as `String` does | only strings the format can lend out of its input (`visit_borrowed_str`) are accepted; JSON with escapes, or from a reader, is rejected |
| `C40_refuted` | `SmallString` has the size of `String` | it is one byte larger |
| `C42_strs_loops` | truncating constructors stop when full | an endless supply of empty pieces never fills the string |
| `C42_extend_pulls` | `extend` takes what fits from its iterator | it first pulls up to a whole capacity's worth of characters, whatever the free space; the pulled characters that do not fit are lost |
| `C45_refuted` | an index off a character boundary is an `Err(Utf8)` | not checked when nothing is inserted and nothing removed |
| `C65_insert_str_refuted` | the same, as `tests/string_parity.rs` would see it (`insert_str` agrees with `String`) | not on a full string whose index 2 is inside a character |
| `C04_write_refuted` | a failed write changes nothing | `write!` of several pieces leaves those that were written |
| `C53_refuted`, `C53_undefined` | safe code keeps the string valid | with feature `logs` and a logger that panics inside `remove`, `insert*`, `drain`, `replace_range` or `trim`, the string has the bytes of the new text with the old length: `replace_range` line 890 calls `self.len()`, which logs, between copying the bytes and assigning `size`. If the panic is caught, `as_str` then makes a `str` of invalid UTF-8 |
| `C53_reentrant` | the logger may be any `log::Log` | `trim`, `as_mut_str`, `IndexMut`, `try_insert_str`, `insert_str_truncate` format the string inside the logger, which logs again: a logger behind a lock deadlocks |
| `C53_as_ref_refuted`, `C55_once_refuted` | the feature `logs` changes no results | for an `impl AsRef<str>` that does not always answer the same, messages ask first, and a later answer is used |
| `C47_exceptions`, `C47_utf16`, `C47_overflows`, `C47_caller_panics` | agreement with `String` | the complete list of exceptions |

## 5. Modelled and not modelled

| file | status |
|---|---|
| src/arraystring.rs | every method |
| src/utils.rs | every function |
| src/implementations.rs | every impl |
| src/drain.rs | every method and impl, and the default iterator methods of core listed in `Model/DrainIter` |
| src/error.rs | every impl; `std::error::Error` has no methods of its own here |
| src/lib.rs | `CacheString` and aliases |
| src/integration.rs | the serde and diesel impls; not the test module |
| `logs` feature | every log statement (`Model/Logs`), for the methods and traits of `ArrayString` and `Drain` that occur in histories; not those of `CacheString`, which only forwards |
| aliasing | every call of a history (`Spec.Op`) on an `ArrayString`, also with references to it kept by the caller (C59) or used by several threads (C60), and on a `CacheString` (C61); not serde and diesel, and not the iterator methods of core on `Drain` |
| `no-panic` (`#[no_panic]`) | a link-time check; C02 proves more |
| ffi/ | not modelled: it does not compile against the current API (uses typenum's `U63`, `from_str_unchecked`) |
| tests/string_parity.rs | its tests, for every text (C65) |
| benches/ | not modelled |

## 6. Simplifications

* Only const capacities accepted by `sealed::ValidCapacity` (arraystring.rs:896-1154: 1 to 255) are considered, as a class.
* `impl AsRef<str>` arguments are modelled as one `str`, except where the code calls `as_ref` more than once
  (`from_iterator_truncate`), where two answers may differ. C55 justifies this: there they are arbitrary code (`AsRefStr`), asked
  wherever the code asks.
* Drop and lifetimes are not modelled: nothing here implements `Drop`. References are modelled only for C54, C57 to C62 and C66 to C71.
* `Debug` (`Model/DebugStr`): the bodies of `<str as Debug>::fmt`, `char::escape_debug_ext`, `escape_unicode`, `<u8 as Debug>::fmt`
  and `pad_integral` are from memory of library/core; older versions of core escape the same characters with other loops. The
  tables `is_grapheme_extended` and `is_printable` are arbitrary functions. `write_char` is `write_str` of the encoded
  character, for every sink.
* `Hasher` is the sequence of `write`/`write_u8` it receives. `Formatter` is the text written plus the flags consulted.
* serde formats are modelled by what they hand to the visitor; diesel backends by the text they store; serde_json by its
  string syntax.
* Layout: field order is free and padding at least what alignment needs, as the reference allows for `repr(Rust)`; equalities
  are for the layout with least padding.
* A closure's behaviour is a function of the arguments it has seen so far, or a panic; a caller's iterator is a state machine
  of any type. They have no access to the string (the borrow checker forbids it).
* `logs`: a message is formatted as a whole; the caller's iterators are finite scripts and the predicate of `retain` cannot see
  the world of the logger; two loops of the code have fuel in `Model/Logs` (256 rounds of a scan over at most 255 bytes; the
  length of the input), and running out counts as `diverge`, which `C53_transparent` shows not to happen.
* Debug assertions. In `Model/Logs` the profile is a field of the environment (`Env.debugAssertions`), since there evaluating
  the condition can itself log; the statements of C53 hold for both values. In the aliasing models the reads and calls made by
  the condition of a `debug_assert!` are made in every profile, only the panic depends on it: a release build makes fewer
  accesses than those for which C54, C57 to C62 and C66 to C71 are proved.
* Aliasing (`Model/Borrow`). The rules are written down from memory of the Stacked Borrows and Tree Borrows papers and of Miri;
  none of them was at hand to compare with. Interior mutability and weak protectors are left out, as they do not occur. Known
  differences:
  * Tree Borrows: a node exists only on the bytes its reference was made for. In the real rules it exists everywhere, lazily, so
    an access outside that range is not by itself undefined behaviour. C54 therefore says nothing about such accesses under Tree
    Borrows (`C54_as_mut_only_stacked` is for Stacked Borrows). For the code here the model is the stricter one: it makes no
    access outside the range of a reference, and a node that has not been used at a byte forbids nothing there.
  * Tree Borrows: in `Tree.rules` the access at the end of a protector also reaches the children of the tag; in Miri it does
    not. C62 has the theorems for Miri's version, `Tree.rulesOuter`; a test there shows that the two differ.
  * Stacked Borrows: removing a protected item is undefined behaviour even if the item is disabled.
  * A function of core that takes a reference and returns one to a part of it makes a protected reference, a new one from it,
    and returns; the caller makes another one. The raw pointers inside `get_unchecked_mut` and `from_utf8_unchecked_mut` are modelled (`throughRaw`); those
    inside the read-only functions (`get_unchecked`, `from_utf8_unchecked`, `as_ptr`) are not. The bodies are from memory of
    library/core.
  * In `Model/Borrow` two-phase borrows are left out; `Model/BorrowCalls` has them, and `Model/BorrowOps` uses
    `replace_range` with them (`replaceRangeOn`).
    That the first does not matter is not proved. A reference returned by a function is retagged by its caller.
  * C57: the memory of a local variable is separate from all other memory and forgotten at the end of its scope. The items of an
    iterator of texts are all read at the same place through the same reference. `u16` slices, formatters and hashers have no
    tags. An argument passed by value whose `as_ref` is called is a `&str`. Where code looks at characters one by one, the
    text is read as a whole, and an edit of a `&mut str` is one read and one write of all of it (any accesses: C54).
  * The text argument does not overlap the string (guaranteed by the borrow checker).
  * Accesses are written in the model beside the computation, not derived from it. C58 shows that none is missing, for the bytes
    of the string and of the text arguments, in calls without undefined behaviour. All texts of a history are at the same
    addresses, so a byte of a text counts as read if it is read in any of them. A byte counts as read in a call once anything in the call reads it, so a missing repetition of a read is not
    noticed, nor is a read or write missing at one of two times. It also does not say that an access goes through the right tag.
  * C66, C67: `Model/Machine` has no string value beside the memory, so an access that is left out there leaves out the byte as well;
    that an access goes through the right tag is still a matter of transcription. Where code goes through the characters of
    the string one by one (`pop`, `trim`, `remove`, `Drain`), the text is loaded as a whole first (byte by byte: C71), except in
    `retain`, which loads a character at a time, with the number of bytes as a bound on its loop (also in C71).
    What `str::get_unchecked` relies on (`promised`) is checked against memory without a load. Local variables and buffers are memory of their own, which
    stands in for the string or for the text while in scope; a local string is moved out as a value, without a load, and the
    text of the string that `extend` makes is taken from that value. The two constant bytes of `Hash` and the results of comparisons are
    computed from loaded bytes. The caller's putting a text in memory (`place`) is not an access.
  * C68, C69: all strings have the same capacity, and the others are behind one shared reference, so none of them is changed by the
    program while the sequence runs. The calls on its own string are those without a text argument, since the place of the
    text is where the others are (calls with a text: C70). `==` on `str` compares the lengths first, `cmp` loads both texts up to the shorter
    length; formatter, serializer and query have no tags, they load what they are handed.
  * C70: a call gets the text of another string, or any text in memory, as a place, a length and a reference, and finds out
    which bytes it has by loading them. The calls of C66 have their text at a fixed place behind the string; `window` runs one
    of them on the bytes of the text wherever they are, with the same tags, and puts back what it did to them. It is a
    change of addresses, not an access. The calls are the twelve of `TextCall`; iterators of texts are as in C66.
  * C71: `pop`, `trim`, `remove`, `retain` and the iterator of `drain` load one byte at a time, each through its own `&u8`, as `Chars` and
    `CharIndices` of `core` do; the iterators are positions and not values in memory. `get(idx..end)` looks at the second end
    only if the first is a boundary, as `core` does. The loops of `trim` are bounded by the number of bytes, and reaching the
    bound counts as undefined behaviour. The other calls are those of C66.
  * C59: programs are sequences of statements that use one `&mut ArrayString`; the next statement may depend on the answers so
    far (`Plan`), which covers branches and loops. The checker follows each path by itself, and the rule has to hold on all of
    them, whatever the answers; a static checker that joins paths accepts fewer programs. A reference is used from the statement that
    makes it to the last that uses it; `Statement.check` is the rule of the borrow checker for this (`Spec/Client`), written down
    independently of the tags. Structs holding references, passing references to functions of the program, and
    `split_at_mut` are left out, as is a `Drain` kept in a variable (`drain` copies, so it borrows nothing). A panic is caught and
    the program goes on without the variable.
  * C60: threads are lists of calls through one `&ArrayString`, with texts they all may read. They take turns step by step, which
    is all there is to see without writes; a step makes a reference to a range, reads one byte, ends the protection of a range, or
    takes over what has been read. Starting and joining threads is not modelled beyond that the caller makes the `&` before
    and uses its `&mut` after. That the compiler derives `Send` and `Sync` from the fields is not modelled either.
  * C61: the struct and its only field are at the same bytes, so a reference to one is a reference to the other (C40 is the
    layout). A method of `ArrayString` called on a `CacheString` goes through `deref` or `deref_mut`, called on a reborrow that is not
    two-phase. `PartialEq`, `Ord` and `Debug` between two `CacheString`s have tags only in C69.
* Default iterator methods (`Model/DrainIter`) are from memory of library/core. Adaptors (`map`, `zip`, `peekable`, ..) are not
  modelled one by one; what they do to a `Drain` is covered by `C56_client`, for any program.
* `char::is_whitespace`, used by `trim`, is the table of the Unicode White_Space property (`Str.isWhitespace`).

## 7. Trusted base

* Lean 4's kernel, and the standard axioms. `#print axioms` of the property theorems: {propext, Classical.choice, Quot.sound}
  or a subset; a few (`C40_aliases`, `C41_conversions`) use none. No axioms of our own; no `sorry`, `native_decide`,
  `bv_decide`. Mathlib is not used.
* That the definitions in `Model/*` say what the Rust source does. Each cites the lines it transcribes.
* That the parts of core/alloc/serde/serde_json/diesel it calls behave as modelled in `Model/Str`, `Model/Fmt`,
  `Model/Integration`, `Model/Json`, `Model/Layout`. For the functions on UTF-8, UTF-16, white space and `ptr::copy`, C52 proves
  that `Model/Str` agrees with a transcription of core's bit-level source (from memory of library/core, which is not in
  /repo), which narrows this to the transcription. The source of serde, serde_json and diesel is not verified.
* That Lean core's `String.utf8EncodeChar` is UTF-8 (a corollary shown in `Proofs/Utf8`: the bytes decode back).
* For C54, C57 to C62 and C66 to C71: that `Stacked.rules` and `Tree.rules` in `Model/Borrow` are the aliasing rules, up to the differences in section 6, and
  that those differences do not matter. Neither is checked against Miri.
* That the statements in `Spec/*` and `Props/*` mean what `properties.jsonl` says; section 8 is the test of that.

## 8. Mutation testing

`seeded/mutants.py` lists edits of the model, `seeded/run.py` applies each in a scratch copy outside /verif, builds, and
writes one line per attempt to `seeded/LOG.jsonl`: the definition, the edit, the claims it should break, the lemmas whose
proof fails, the property theorems depending on them, and, from evaluating the mutated model against the specification on
samples (`seeded/diff.lean.txt`), the calls for which the property is really false rather than its proof merely broken.
Mutants that do not change behaviour are marked `equivalent`.

A proof that fails is replaced by its statement and the rest is elaborated (`deep.py`). A theorem counts as failed if, in the
mutated build, it rests on such a proof. Lines of the log without `"attribution": "mutated build"` used the dependencies of the
original proofs instead, which can both miss theorems and credit theorems that do not fail; they are superseded.

For `Model/Borrow`, `seeded/borrow.py` also runs sample programs on the mutated model under both sets of rules
(`borrow.lean.txt`), since a proof that breaks does not show that the property is false. Two edits first taken for wrong
programs turned out to be equivalent this way, and one taken for equivalent turned out to be wrong.
For C59 it runs every accepted program of up to three statements of a small language, and up to four of a smaller one
(`client.lean.txt`); there mutants are also edits of `Spec/Client`, that is, of which programs are accepted.
`threads.lean.txt` (C60), `cache.lean.txt` (C61), `debug.lean.txt` (C63), `mixed.lean.txt` (C64), `parity.lean.txt` (C65), `machine.lean.txt` (C66),
`machinecache.lean.txt` (C67), `machinemany.lean.txt` (C68), `cachemany.lean.txt` (C69), `lend.lean.txt` (C70) and `machinechars.lean.txt`, `cachechars.lean.txt` (C71) do the same for their models. Some mutants are edits
of a specification (`Spec/StdString`, `Spec/DebugStr`): a theorem must fail for these as well, or its right-hand side says nothing.

Of the 1002 mutants listed, 263 have no line in the log: they were written but not run to the end. These are 517-532, 603-608,
657-685, 722-792, 796-823, 860-886, 895-920, 931-976 and 982-995, so C67, C69, C70 and C71 are tested less than the rest.
996-1002 were built only up to the module that failed and not evaluated on samples; which theorems fail was read off from
the lemmas they use. 833 breaks the proof of C68, but the samples of its run did not show a difference; the run with the
better samples was not finished.

`Props/DocExamples` is a test of another kind: the `assert`s of the documentation of src/arraystring.rs and src/lib.rs, evaluated on
the model. It says that model and specification agree with what the authors wrote down as expected results.
