import Verif.Model.BorrowOps

/-!
The bytes that a call reads and writes.

`Model/Borrow` to `Model/BorrowOps` keep the contents of the string apart from the accesses: a method
says which bytes it reads and writes through which tag, and computes with the string as the plain model
does.  Here the accesses are recorded, so that the two can be compared (C58): what a method computes must
depend on bytes only that it has read, and it must change bytes only that it has written.
-/

namespace Verif.Borrow

/-- What has happened to a byte. -/
structure Mark where
  read : Bool
  written : Bool
deriving DecidableEq, Repr

/-- The rules `R`, remembering the accesses.  Making a reference is not an access. -/
def traced (R : Rules) : Rules where
  St := R.St × Mark
  empty := (R.empty, ⟨false, false⟩)
  alloc t := (R.alloc t, ⟨false, false⟩)
  read t st := (R.read t st.1).map (·, { st.2 with read := true })
  write t st := (R.write t st.1).map (·, { st.2 with written := true })
  unique t new p st := (R.unique t new p st.1).map (·, st.2)
  shared t new p st := (R.shared t new p st.1).map (·, st.2)
  twoPhase t new st := (R.twoPhase t new st.1).map (·, st.2)
  rawMut t new st := (R.rawMut t new st.1).map (·, st.2)
  rawTag := R.rawTag
  release t st := (R.release t st.1).map (·, st.2)

variable {R : Rules} {N : Nat}

/-- What has happened to the byte at an address. -/
def marks (w : World (traced R) N) (l : Nat) : Mark := (w.mem l).2

/-- The byte at an address of the string. -/
def byteAt (s : ArrayString N) (l : Nat) : Option UInt8 :=
  if l < N then s.array[l]? else if l = N then some s.size else none

/-- The same memory before any access. -/
def unmarked (w : World R N) : World (traced R) N where
  str := w.str
  mem l := (w.mem l, ⟨false, false⟩)
  next := w.next

/-! ## Calls with another text -/

/-- The same script with other items. -/
inductive OtherItems {α : Type} (P : α → α → Prop) : Spec.Script α → Spec.Script α → Prop
  | nil : OtherItems P [] []
  | panic {l l' : Spec.Script α} : OtherItems P l l' → OtherItems P (none :: l) (none :: l')
  | item {a a' : α} {l l' : Spec.Script α} : P a a' → OtherItems P l l' → OtherItems P (some a :: l) (some a' :: l')

open Spec in
/-- The same call with another text (or other texts) as its argument. -/
inductive OtherText (P : List Char → List Char → Prop) : Op → Op → Prop
  | tryFromStr {t t'} : P t t' → OtherText P (.tryFromStr t) (.tryFromStr t')
  | parse {t t'} : P t t' → OtherText P (.parse t) (.parse t')
  | fromStrTruncate {t t'} : P t t' → OtherText P (.fromStrTruncate t) (.fromStrTruncate t')
  | from_ {t t'} : P t t' → OtherText P (.from_ t) (.from_ t')
  | tryPushStr {t t'} : P t t' → OtherText P (.tryPushStr t) (.tryPushStr t')
  | pushStrTruncate {t t'} : P t t' → OtherText P (.pushStrTruncate t) (.pushStrTruncate t')
  | tryInsertStr {i t t'} : P t t' → OtherText P (.tryInsertStr i t) (.tryInsertStr i t')
  | insertStrTruncate {i t t'} : P t t' → OtherText P (.insertStrTruncate i t) (.insertStrTruncate i t')
  | replaceRange {r t t'} : P t t' → OtherText P (.replaceRange r t) (.replaceRange r t')
  | add {t t'} : P t t' → OtherText P (.add t) (.add t')
  | writeStr {t t'} : P t t' → OtherText P (.writeStr t) (.writeStr t')
  | eqStr {t t'} : P t t' → OtherText P (.eqStr t) (.eqStr t')
  | tryFromIterator {l l'} : OtherItems P l l' → OtherText P (.tryFromIterator l) (.tryFromIterator l')
  | fromIteratorTruncate {l l'} : OtherItems (fun p p' => P p.1 p'.1 ∧ P p.2 p'.2) l l' →
      OtherText P (.fromIteratorTruncate l) (.fromIteratorTruncate l')
  | collectStrs {l l'} : OtherItems P l l' → OtherText P (.collectStrs l) (.collectStrs l')
  | extendStrs {l l'} : OtherItems P l l' → OtherText P (.extendStrs l) (.extendStrs l')
  | writeFmt {l l'} : OtherItems P (l.map some) (l'.map some) → OtherText P (.writeFmt l) (.writeFmt l')
  | same {op} : OtherText P op op

/-- The same history, with other texts in its calls. -/
inductive OtherTexts (P : List Char → List Char → Prop) : List Spec.Op → List Spec.Op → Prop
  | nil : OtherTexts P [] []
  | cons {op op' ops ops'} : OtherText P op op' → OtherTexts P ops ops' → OtherTexts P (op :: ops) (op' :: ops')

end Verif.Borrow
