import Verif.Spec.Fmt

/-! # Vocabulary for `Debug` output -/

namespace Verif.Spec

/-- Indent every line by four spaces; `start` says that a line begins here. -/
def indent (start : Bool) : Bytes → Bytes
  | [] => []
  | b :: bs => (if start then [32, 32, 32, 32] else []) ++ b :: indent (b == 10) bs

/-- A sink that accepts everything, `f w b` being its state after the bytes `b`; it does not matter
how the bytes are cut into pieces. -/
structure Accepts {ω : Type} (sink : Sink ω) (f : ω → Bytes → ω) : Prop where
  writes : ∀ b w, sink.writeStr b w = (.ok (), f w b)
  nil : ∀ w, f w [] = w
  append : ∀ w a b, f w (a ++ b) = f (f w a) b

/-- With options `o`, the `Debug` implementation `d` writes the bytes `t`. -/
def Shows (d : Fmt.Dbg) (o : FmtOpts) (t : Bytes) : Prop :=
  ∀ (ω : Type) (sink : Sink ω) (f : ω → Bytes → ω), Accepts sink f → ∀ w, d sink o w = (.ok (), f w t)

end Verif.Spec
