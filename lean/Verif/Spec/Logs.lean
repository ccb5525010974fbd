import Verif.Model.Logs
import Verif.Spec.Holds

/-! # Vocabulary for the `logs` feature: what a logger may do to its callers -/

namespace Verif.Logged
open Verif Spec

variable {W ε α : Type}

/-- The ways a call can be cut short. -/
inductive Crash where
  | panic
  | ub
  | diverge
deriving DecidableEq, Repr

/-- Being cut short, as an outcome. -/
def Crash.toRes : Crash → Res ε α
  | .panic => .panic
  | .ub => .ub
  | .diverge => .diverge

/-- The computation ends normally, or is cut short in one of the ways `A`. -/
def Fine (A : Crash → Prop) (x : M W ε α) : Prop :=
  ∀ w, (∃ a, (x w).1 = .ok a) ∨ ∃ c, A c ∧ (x w).1 = c.toRes

/-- The logger cuts its callers short only in the ways `A`, as long as the messages it is given to
format do.  Nothing is asked of a level that is never enabled. -/
def Tame (A : Crash → Prop) (E : Env W) : Prop :=
  ∀ lvl, (∃ w, E.enabled lvl w = true) → ∀ message, Fine A message → Fine A (E.log lvl message)

/-- A logger that always returns, whatever it does otherwise. -/
def Quiet (E : Env W) : Prop := Tame (fun _ => False) E

/-- The string with the bytes of `cs` written over the beginning of its buffer, and its length as it
was: what is in memory between lines 889 and 890 of `replace_range`. -/
def overwrite {N : Nat} (s : ArrayString N) (cs : List Char) : ArrayString N :=
  ⟨utf8 cs ++ s.array.drop (byteLen cs), s.size⟩

/-- What a `trim` cut short may leave, besides the string as it was: the text without its trailing
white space, or that overwritten with the trimmed text. -/
def TrimCut {N : Nat} (s : ArrayString N) (cs : List Char) (u : ArrayString N) : Prop :=
  u = s ∨ ∃ pre post, cs = pre ++ trimText cs ++ post ∧ (∀ c ∈ pre, IsWhite c) ∧ (∀ c ∈ post, IsWhite c) ∧
    ∃ s1, Holds s1 (pre ++ trimText cs) ∧ (u = s1 ∨ u = overwrite s1 (trimText cs))

/-- What a call that is cut short may leave of a string `s` holding `cs`. -/
def Left {N : Nat} (op : Op) (s : ArrayString N) (cs : List Char) (u : ArrayString N) : Prop :=
  match op with
  -- appending: a string holding the old text
  | .tryPushStr _ | .pushStrTruncate _ | .tryPush _ | .writeStr _ | .extendChars _ | .extendStrs _ => Holds u cs
  -- appending piece by piece: some of the pieces
  | .writeFmt ws => ∃ k, Holds u (cs ++ (ws.take k).flatten)
  -- edits: the string as it was, or the new text written over it with the old length
  | .remove _ | .tryInsert _ _ | .tryInsertStr _ _ | .insertStrTruncate _ _ | .replaceRange _ _ =>
    u = s ∨ u = overwrite s (step N op cs).2
  -- edits that go on after the text has been changed
  | .drain _ _ => u = s ∨ u = overwrite s (step N op cs).2 ∨ Holds u (step N op cs).2
  | .splitOff _ => u = s ∨ Holds u (step N op cs).2
  | .trim => TrimCut s cs u
  -- anything else: the string as it was
  | _ => u = s

/-- No level is ever enabled. -/
def Off (E : Env W) : Prop := ∀ lvl w, E.enabled lvl w = false

/-- A relation between earlier and later states. -/
class Steady {σ : Type} (R : σ → σ → Prop) : Prop where
  refl : ∀ u, R u u
  trans : ∀ {u v w}, R u v → R v w → R u w

/-- The computation changes the state only as `R` allows, whether it ends normally or is cut short. -/
def Keeps {σ : Type} (R : σ → σ → Prop) (x : M σ ε α) : Prop := ∀ u, R u (x u).2

/-- The logger changes the world only as `K` allows, as long as the messages it is given to format do. -/
def LogKeeps (K : W → W → Prop) (E : Env W) : Prop :=
  ∀ lvl, (∃ w, E.enabled lvl w = true) → ∀ message, Keeps K message → Keeps K (E.log lvl message)

/-- A logger that returns or panics. -/
def MayPanic (E : Env W) : Prop := Tame (· = .panic) E

end Verif.Logged
