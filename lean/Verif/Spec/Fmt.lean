import Verif.Model.Fmt

/-! # Vocabulary for formatting: what a format argument writes, and recording sinks and hashers -/

namespace Verif
open Spec

variable {ω : Type}

/-- Write the texts one after the other, stopping at the first failure. -/
def writeTexts (sink : Sink ω) : List (List Char) → M ω FmtError Unit
  | [] => pure ()
  | w :: ws => do
    sink.writeStr (utf8 w)
    writeTexts sink ws

/-- A piece of a format string amounts to writing the texts `ws` in turn: a literal writes itself, an
argument writes whatever its `fmt` function writes. -/
def PieceWrites (sink : Sink ω) : Fmt.Piece ω → List (List Char) → Prop
  | .lit b, ws => ∃ w, b = utf8 w ∧ ws = [w]
  | .arg o f, ws => f o = writeTexts sink ws

/-- The pieces of a format string write, in order, the texts `ws`. -/
inductive PiecesWrite (sink : Sink ω) : List (Fmt.Piece ω) → List (List Char) → Prop
  | nil : PiecesWrite sink [] []
  | cons {p : Fmt.Piece ω} {ps : List (Fmt.Piece ω)} {ws ws' : List (List Char)} :
      PieceWrites sink p ws → PiecesWrite sink ps ws' → PiecesWrite sink (p :: ps) (ws ++ ws')

/-- A sink that never fails and collects the bytes (like a `String`). -/
def collect : Sink Bytes := ⟨fun b out => (.ok (), out ++ b)⟩

/-- A hasher that records the bytes it is fed. -/
def traceHasher : Hasher Bytes := ⟨fun h b => h ++ b, fun h b => h ++ [b]⟩

end Verif
