import Verif.Model.Rust

/-! # What an iterator yields -/

namespace Verif.Spec
open Verif

variable {κ α : Type}

/-- Calling `next` from state `k` yields the items `l`, one by one, and leaves state `k'`. -/
inductive Yields (it : Iter κ α) : κ → List α → κ → Prop
  | nil (k : κ) : Yields it k [] k
  | cons {k k' k'' : κ} {a : α} {l : List α} :
      it k = .item a k' → Yields it k' l k'' → Yields it k (a :: l) k''

end Verif.Spec
