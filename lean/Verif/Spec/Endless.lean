import Verif.Model.ArrayString
import Verif.Spec.Iter

/-! # Iterators over strings -/

namespace Verif
open Spec ArrayString

variable {κ : Type}

/-- An item whose `as_ref` always answers the same text. -/
def honest (w : List Char) : AsRefTwice := ⟨utf8 w, utf8 w⟩

/-- The iterator's items are texts: both answers of `as_ref` are valid `str`s. -/
def TextItems (it : Iter κ AsRefTwice) : Prop :=
  ∀ k a k', it k = .item a k' → ∃ w w' : List Char, a = ⟨utf8 w, utf8 w'⟩

/-- From state `k` the iterator goes on for ever with pieces that, together, fit in `n` bytes. -/
def Endless (it : Iter κ AsRefTwice) (n : Nat) (k : κ) : Prop :=
  ∀ m, ∃ (ps : List (List Char × List Char)) (k1 : κ), ps.length = m ∧
    Yields it k (ps.map fun p => ⟨utf8 p.1, utf8 p.2⟩) k1 ∧ byteLen (ps.map Prod.fst).flatten ≤ n

/-- The items of the iterator are texts. -/
def TextItems' (it : Iter κ Bytes) : Prop :=
  ∀ k a k', it k = .item a k' → ∃ w : List Char, a = utf8 w

/-- From state `k` the iterator goes on for ever with pieces that, together, fit in `n` bytes. -/
def Endless' (it : Iter κ Bytes) (n : Nat) (k : κ) : Prop :=
  ∀ m, ∃ (ws : List (List Char)) (k1 : κ), ws.length = m ∧
    Yields it k (ws.map utf8) k1 ∧ byteLen ws.flatten ≤ n

end Verif
