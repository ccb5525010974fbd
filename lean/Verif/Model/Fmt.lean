import Verif.Model.Str

/-! # The parts of `core::fmt`, `core::hash` and `core::cmp` the crate calls

Standard library behaviour, not code of the repository. -/

namespace Verif

variable {ω ε α η : Type}

/-! ## Formatting -/

/-- `core::fmt::Error`. -/
structure FmtError where
deriving DecidableEq, Repr

/-- A `dyn fmt::Write`: what `write_str` does to the sink. -/
structure Sink (ω : Type) where
  writeStr : Bytes → M ω FmtError Unit

/-- `fmt::Alignment`. -/
inductive Align where
  | left | right | center
deriving DecidableEq, Repr

/-- The hexadecimal flags of `{:x?}` and `{:X?}`. -/
inductive DebugHex where
  | lower | upper
deriving DecidableEq, Repr

/-- The options of a `fmt::Formatter` (as in `{:*^10.3}`); `alternate` is the `#` flag, `signPlus` the
`+` flag, `zeroPad` the `0` flag. -/
structure FmtOpts where
  fill : Char := ' '
  align : Option Align := none
  width : Option Nat := none
  precision : Option Nat := none
  alternate : Bool := false
  signPlus : Bool := false
  zeroPad : Bool := false
  debugHex : Option DebugHex := none
deriving DecidableEq, Repr

namespace Fmt

/-- `fmt::Write::write_char` (default method). -/
def writeChar (sink : Sink ω) (c : Char) : M ω FmtError Unit := sink.writeStr (Str.encodeUtf8 c)

/-- Write a character `n` times (`PostPadding::write` and the loop in `Formatter::padding`). -/
def writeFill (sink : Sink ω) (c : Char) : Nat → M ω FmtError Unit
  | 0 => pure ()
  | n + 1 => do
    writeChar sink c
    writeFill sink c n

/-- How `Formatter::padding` splits the padding of a left-aligned-by-default value. -/
def splitPadding (align : Option Align) (n : Nat) : Nat × Nat :=
  match align with
  | none | some .left => (0, n)
  | some .right => (n, 0)
  | some .center => (n / 2, (n + 1) / 2)

/-- `Formatter::pad(s)`, which is also `<str as Display>::fmt`. -/
def pad (sink : Sink ω) (o : FmtOpts) (s : Bytes) : M ω FmtError Unit :=
  match o.width, o.precision with
  | none, none => sink.writeStr s
  | w, p =>
    let s : Bytes := match p with
      | none => s
      | some p => ((Str.chars s).take p).flatMap Str.encodeUtf8
    let count := (Str.chars s).length
    match w with
    | none => sink.writeStr s
    | some w =>
      if w ≤ count then sink.writeStr s
      else do
        let (pre, post) := splitPadding o.align (w - count)
        writeFill sink o.fill pre
        sink.writeStr s
        writeFill sink o.fill post

/-- One element of `fmt::Arguments`: literal text, or a placeholder with its options and the `fmt`
function of its argument. -/
inductive Piece (ω : Type) where
  | lit (s : Bytes)
  | arg (o : FmtOpts) (fmt : FmtOpts → M ω FmtError Unit)

/-- `core::fmt::write(sink, args)`: stops at the first error; empty literals are skipped. -/
def write (sink : Sink ω) : List (Piece ω) → M ω FmtError Unit
  | [] => pure ()
  | .lit s :: ps => do
    if s.isEmpty then pure () else sink.writeStr s
    write sink ps
  | .arg o f :: ps => do
    f o
    write sink ps

/-- `<[u8]>::split_inclusive` at line feeds (of `str::split_inclusive('\n')`). -/
def lines : Bytes → List Bytes
  | [] => []
  | b :: bs =>
    if b = 10 then [b] :: lines bs
    else match lines bs with
      | [] => [[b]]
      | l :: ls => (b :: l) :: ls

/-- The loop of `<PadAdapter as fmt::Write>::write_str` (`core/src/fmt/builders.rs`): indents every
line by four spaces.  The flag of the state says that a line begins. -/
def padLines (sink : Sink ω) : List Bytes → M (ω × Bool) FmtError Unit
  | [] => pure ()
  | l :: ls => do
    let (_, onNewline) ← M.self
    if onNewline then onSink (sink.writeStr [32, 32, 32, 32]) else pure ()
    let (w, _) ← M.self
    M.setSelf (w, l.getLast? == some 10)
    onSink (sink.writeStr l)
    padLines sink ls
where
  /-- Run on the wrapped sink. -/
  onSink (m : M ω FmtError Unit) : M (ω × Bool) FmtError Unit := fun (w, b) => ((m w).1, ((m w).2, b))

/-- `PadAdapter`. -/
def padAdapter (sink : Sink ω) : Sink (ω × Bool) := ⟨fun s => padLines sink (lines s)⟩

/-- Use a `PadAdapter` at the beginning of a line. -/
def padded (m : M (ω × Bool) FmtError Unit) : M ω FmtError Unit := fun w =>
  ((m (w, true)).1, (m (w, true)).2.1)

/-- A `&dyn Debug`: its `fmt` for any formatter. -/
def Dbg := {ω : Type} → Sink ω → FmtOpts → M ω FmtError Unit

/-- `DebugStruct::field` and `DebugTuple::field` for the fields in turn (`core/src/fmt/builders.rs`),
each with what is written before its value; `first` until there has been one. -/
def debugFields (sink : Sink ω) (o : FmtOpts) (open_ : Bytes) (first : Bool) : List (Bytes × Dbg) → M ω FmtError Unit
  | [] => pure ()
  | (label, value) :: fs => do
    if o.alternate then do
      if first then sink.writeStr (open_ ++ [10]) else pure ()
      padded (do
        if label.isEmpty then pure () else do
          (padAdapter sink).writeStr label
          (padAdapter sink).writeStr [58, 32]
        value (padAdapter sink) o
        (padAdapter sink).writeStr [44, 10])
    else do
      sink.writeStr (if first then (if label.isEmpty then open_ else open_ ++ [32]) else [44, 32])
      if label.isEmpty then pure () else do
        sink.writeStr label
        sink.writeStr [58, 32]
      value sink o
    debugFields sink o open_ false fs

/-- `f.debug_struct(name).field(..)..finish()` with at least one field. -/
def debugStruct (sink : Sink ω) (o : FmtOpts) (name : Bytes) (fs : List (Bytes × Dbg)) : M ω FmtError Unit := do
  sink.writeStr name
  debugFields sink o [32, 123] true fs
  sink.writeStr (if o.alternate then [125] else [32, 125])

/-- `f.debug_tuple(name).field(..)..finish()` with a non-empty name and at least one field. -/
def debugTuple (sink : Sink ω) (o : FmtOpts) (name : Bytes) (fs : List Dbg) : M ω FmtError Unit := do
  sink.writeStr name
  debugFields sink o [40] true (fs.map fun f => ([], f))
  sink.writeStr [41]

end Fmt

/-! ## Hashing and comparing -/

/-- A `core::hash::Hasher`: its two primitive operations used for `str`. -/
structure Hasher (η : Type) where
  write : η → Bytes → η
  writeU8 : η → UInt8 → η

/-- `<str as Hash>::hash`: `Hasher::write_str`, whose default is the bytes, then `0xff`. -/
def Str.hash (H : Hasher η) (s : Bytes) (h : η) : η := H.writeU8 (H.write h s) 0xff

/-- `<str as PartialEq>::eq`: byte equality. -/
def Str.eq (a b : Bytes) : Bool := a == b

/-- `<str as Ord>::cmp`: lexicographic order of the bytes. -/
def Str.cmp : Bytes → Bytes → Ordering
  | [], [] => .eq
  | [], _ :: _ => .lt
  | _ :: _, [] => .gt
  | a :: as, b :: bs =>
    if a.toNat < b.toNat then .lt
    else if b.toNat < a.toNat then .gt
    else Str.cmp as bs

/-! ## Indexing a `str` by `usize` ranges: panics when the range is not a valid slice -/

/-- `str[a..b]`. -/
def Str.index (s : Bytes) (a b : Nat) : Res ε Bytes :=
  match Str.get? s a b with
  | some t => .ok t
  | none => .panic

end Verif
