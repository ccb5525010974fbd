import Verif.Model.CacheString

/-! # Memory layout of the types

How Rust lays out structs (the Rust reference, "Type layout"), and the declarations of the crate. -/

namespace Verif

/-- Size and alignment of a type, in bytes. -/
structure Layout where
  size : Nat
  align : Nat
deriving DecidableEq, Repr

namespace Layout

/-- `u8`. -/
def u8 : Layout := ⟨1, 1⟩
/-- A pointer or `usize` on a target with `w` byte words. -/
def word (w : Nat) : Layout := ⟨w, w⟩
/-- `[T; n]`. -/
def array (t : Layout) (n : Nat) : Layout := ⟨t.size * n, t.align⟩

/-- What the reference guarantees of any struct (of the default representation, `minAlign` from
`repr(align)`, else 1): `l` is its layout and the fields lie at the offsets `offs`. -/
structure IsStruct (fields : List Layout) (minAlign : Nat) (l : Layout) (offs : List Nat) : Prop where
  length : offs.length = fields.length
  inside : ∀ p ∈ fields.zip offs, p.2 + p.1.size ≤ l.size
  aligned : ∀ p ∈ fields.zip offs, p.1.align ∣ p.2
  disjoint : (fields.zip offs).Pairwise fun p q => p.2 + p.1.size ≤ q.2 ∨ q.2 + q.1.size ≤ p.2
  align : ∀ f ∈ fields, f.align ≤ l.align
  minAlign : minAlign ≤ l.align
  size : l.align ∣ l.size

/-- Round `n` up to a multiple of `a`. -/
def roundUp (n a : Nat) : Nat := (n + a - 1) / a * a

/-- Place the fields one after the other, in this order, with as little padding as possible. -/
def place : List Layout → Nat → List Nat × Nat
  | [], off => ([], off)
  | f :: fs, off =>
    let o := roundUp off f.align
    let (os, e) := place fs (o + f.size)
    (o :: os, e)

/-- The layout of a struct whose fields are stored in this order. -/
def struct (fields : List Layout) (minAlign : Nat) : Layout :=
  let a := (fields.map Layout.align).foldl max minAlign
  ⟨roundUp (place fields 0).2 a, a⟩

/-- arraystring.rs:28-33 `struct ArrayString<N> { array: [u8; N], size: u8 }`: its fields. -/
def arrayStringFields (N : Nat) : List Layout := [array u8 N, u8]

/-- `ArrayString<N>` with the fields in declaration order. -/
def arrayString (N : Nat) : Layout := struct (arrayStringFields N) 1

/-- lib.rs:161-168 `#[repr(align(64))] struct CacheString(ArrayString<63>)`. -/
def cacheString : Layout := struct [arrayString cacheStringSize] 64

/-- drain.rs:15-17 `struct Drain<N>(ArrayString<N>)`. -/
def drain (N : Nat) : Layout := struct [arrayString N] 1

/-- lib.rs:146 the capacity of `SmallString`. -/
def smallStringCapacity (w : Nat) : Nat := (word w).size * 3

/-- lib.rs:149 the capacity of `MaxString`. -/
def maxStringCapacity : Nat := 255

/-- `alloc::string::String` (a `Vec<u8>`: capacity, pointer, length); not code of the repository. -/
def string (w : Nat) : Layout := struct [word w, word w, word w] 1

end Layout
end Verif
