import Verif.Spec.Logs

/-! # Vocabulary for `impl AsRef<str>` arguments that do not always answer the same -/

namespace Verif.Logged
open Verif Spec

variable {W ε α : Type} {N : Nat}

/-- What the argument answers is a `&str`. -/
def Honest (a : AsRefStr W) : Prop := ∀ w b, (a w).1 = .ok b → ∃ t, b = utf8 t

/-- In some state of the world the argument answers `t`. -/
def Answers (a : AsRefStr W) (t : List Char) : Prop := ∃ w, (a w).1 = .ok (utf8 t)

/-- In some state of the world the argument does not return, in the way `c`. -/
def Falters (a : AsRefStr W) (c : Crash) : Prop := ∃ w, (a w).1 = c.toRes

/-- The argument is asked for its text exactly once, and then `m` is done with the answer; if it does
not return, nothing is done. -/
def askedOnce (a : AsRefStr W) (m : Bytes → M (ArrayString N) ε α) : M (ArrayString N × W) ε α := fun p =>
  match a p.2 with
  | (.ok b, w) => ((m b p.1).1, (m b p.1).2, w)
  | (.err e, _) => nomatch e
  | (.panic, w) => (.panic, p.1, w)
  | (.ub, w) => (.ub, p.1, w)
  | (.diverge, w) => (.diverge, p.1, w)

/-- The outcome `o` of a call on `s` is that of `m` with one of the answers of the argument, or the
argument did not return and the string is as it was. -/
def WithSomeAnswer (a : AsRefStr W) (m : Bytes → M (ArrayString N) ε α) (s : ArrayString N)
    (o : Res ε α × ArrayString N × W) : Prop :=
  (∃ t, Answers a t ∧ o.1 = (m (utf8 t) s).1 ∧ o.2.1 = (m (utf8 t) s).2) ∨
  ∃ c, Falters a c ∧ o.1 = c.toRes ∧ o.2.1 = s

/-- The texts of the items one after the other, while there is room for them; `none` if an item does
not fit.  Items are asked until then. -/
inductive Gathered : Nat → Script (AsRefStr W) → Option (List Char) → Prop where
  | done (n : Nat) : Gathered n [] (some [])
  | fits {n : Nat} {a : AsRefStr W} {k : Script (AsRefStr W)} {t : List Char} {o : Option (List Char)} :
      Answers a t → byteLen t ≤ n → Gathered (n - byteLen t) k o → Gathered n (some a :: k) (o.map (t ++ ·))
  | over {n : Nat} {a : AsRefStr W} {k : Script (AsRefStr W)} {t : List Char} :
      Answers a t → n < byteLen t → Gathered n (some a :: k) none

/-- The texts of the items one after the other, while there is room for them, and then what fits of the
second answer of the first item that does not fit. -/
inductive Filled : Nat → Script (AsRefStr W × AsRefStr W) → List Char → Prop where
  | done (n : Nat) : Filled n [] []
  | fits {n : Nat} {a : AsRefStr W × AsRefStr W} {k : Script (AsRefStr W × AsRefStr W)} {t out : List Char} :
      Answers a.1 t → byteLen t ≤ n → Filled (n - byteLen t) k out → Filled n (some a :: k) (t ++ out)
  | cut {n : Nat} {a : AsRefStr W × AsRefStr W} {k : Script (AsRefStr W × AsRefStr W)} {t u out : List Char} :
      Answers a.1 t → n < byteLen t → Answers a.2 u → LongestFit n u out → Filled n (some a :: k) out

/-- The iterator panics, or one of its items does not return. -/
def Spoiled (k : Script (AsRefStr W)) (c : Crash) : Prop :=
  (none ∈ k ∧ c = .panic) ∨ ∃ a, some a ∈ k ∧ Falters a c

/-- The iterator panics, or one of its items does not return. -/
def Spoiled2 (k : Script (AsRefStr W × AsRefStr W)) (c : Crash) : Prop :=
  (none ∈ k ∧ c = .panic) ∨ ∃ a, some a ∈ k ∧ (Falters a.1 c ∨ Falters a.2 c)

/-- An argument that answers texts. -/
def answering (a : M W Empty (List Char)) : M W Empty Bytes := do
  let t ← a
  pure (utf8 t)

/-- Ask the items for their texts in turn, each exactly once, until one does not fit in what is left of
`n` bytes. -/
def gatherInTurn : Nat → Script (M W Empty (List Char)) → M W OutOfBounds (List Char)
  | _, [] => pure []
  | _, none :: _ => M.lift .panic
  | n, some a :: k => do
    let t ← noErr a
    if byteLen t ≤ n then do
      let out ← gatherInTurn (n - byteLen t) k
      pure (t ++ out)
    else M.lift (.err {})

/-- Ask the items for their texts in turn, each exactly once, until one does not fit in what is left of
`n` bytes; that one is asked once more, and of the second answer as much is taken as fits. -/
def fillInTurn : Nat → Script (M W Empty (List Char) × M W Empty (List Char)) → M W ε (List Char)
  | _, [] => pure []
  | _, none :: _ => M.lift .panic
  | n, some a :: k => do
    let t ← noErr a.1
    if byteLen t ≤ n then do
      let out ← fillInTurn (n - byteLen t) k
      pure (t ++ out)
    else do
      let u ← noErr a.2
      pure (takeFit n u)

end Verif.Logged
