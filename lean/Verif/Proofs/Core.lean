import Verif.Spec.Holds
import Verif.Proofs.Utf8

/-! # The monad, `Holds`, and `replace_range` -/

namespace Verif
open Spec

section monad
variable {σ ε ε' α β : Type}

@[simp] theorem M.pure_apply (a : α) (s : σ) : (Pure.pure a : M σ ε α) s = (.ok a, s) := rfl
theorem M.bind_apply (x : M σ ε α) (f : α → M σ ε β) (s : σ) :
    (x >>= f) s = match x s with
      | (.ok a, s') => f a s'
      | (.err e, s') => (.err e, s')
      | (.panic, s') => (.panic, s')
      | (.ub, s') => (.ub, s')
      | (.diverge, s') => (.diverge, s') := rfl
@[simp] theorem M.self_apply (s : σ) : (M.self : M σ ε σ) s = (.ok s, s) := rfl
@[simp] theorem M.setSelf_apply (t s : σ) : (M.setSelf t : M σ ε Unit) s = (.ok (), t) := rfl
@[simp] theorem M.lift_apply (r : Res ε α) (s : σ) : M.lift r s = (r, s) := rfl
@[simp] theorem M.try_apply [ErrFrom ε ε'] (r : Res ε α) (s : σ) :
    (M.try_ r : M σ ε' α) s = (r.mapErr ErrFrom.from_, s) := rfl
@[simp] theorem M.mapErr_apply (f : ε → ε') (m : M σ ε α) (s : σ) :
    M.mapErr f m s = ((m s).1.mapErr f, (m s).2) := rfl
@[simp] theorem M.attempt_apply (m : M σ ε α) (s : σ) :
    (M.attempt m : M σ ε' _) s = ((m s).1.attempt, (m s).2) := rfl

@[simp] theorem Res.pure_eq (a : α) : (Pure.pure a : Res ε α) = .ok a := rfl
@[simp] theorem Res.bind_ok (a : α) (f : α → Res ε β) : ((Res.ok a : Res ε α) >>= f) = f a := rfl
@[simp] theorem Res.bind_err (e : ε) (f : α → Res ε β) : ((Res.err e : Res ε α) >>= f) = .err e := rfl
@[simp] theorem Res.mapErr_ok (a : α) (f : ε → ε') : (Res.ok a : Res ε α).mapErr f = .ok a := rfl
@[simp] theorem Res.mapErr_err (e : ε) (f : ε → ε') : (Res.err e : Res ε α).mapErr f = .err (f e) := rfl
@[simp] theorem Res.attempt_ok (a : α) : ((Res.ok a : Res ε α).attempt : Res ε' _) = .ok (.ok a) := rfl
@[simp] theorem Res.attempt_err (e : ε) : ((Res.err e : Res ε α).attempt : Res ε' _) = .ok (.error e) := rfl

@[simp] theorem from_oob (e : OutOfBounds) : (ErrFrom.from_ e : Error) = .outOfBounds := rfl
@[simp] theorem from_utf8 (e : Utf8) : (ErrFrom.from_ e : Error) = .utf8 := rfl
@[simp] theorem from_utf16 (e : Utf16) : (ErrFrom.from_ e : Error) = .utf16 := rfl
end monad

theorem usizeMax_ge : 65535 ≤ usizeMax := by
  unfold usizeMax
  cases width <;> decide

section
variable {N : Nat} {ε : Type}

theorem isInsideBoundary_ok {a b : Nat} (h : a ≤ b) : isInsideBoundary a b = .ok () := if_pos h
theorem isInsideBoundary_err {a b : Nat} (h : ¬ a ≤ b) : isInsideBoundary a b = .err {} := if_neg h
theorem addUsize_ok {a b : Nat} (h : a + b ≤ usizeMax) : (addUsize a b : Res ε Nat) = .ok (a + b) :=
  if_pos h
theorem subUsize_ok {a b : Nat} (h : b ≤ a) : (subUsize a b : Res ε Nat) = .ok (a - b) := if_pos h
theorem ptrAdd_ok {a b : Nat} (h : b ≤ a) : (ptrAdd a b : Res ε Nat) = .ok b := if_pos h

theorem debugAssert_true {b : Bool} (h : b = true) : (debugAssert b : Res ε Unit) = .ok () := if_pos h

theorem ValidCapacity.pos [h : ValidCapacity N] : 1 ≤ N := by
  have := List.mem_range'_1.1 h.mem; omega
theorem ValidCapacity.le [h : ValidCapacity N] : N ≤ 255 := by
  have := List.mem_range'_1.1 h.mem; omega

instance : ValidCapacity 63 := ⟨by decide⟩

variable {s : ArrayString N} {cs : List Char}

theorem Holds.len (h : Holds s cs) : s.len = byteLen cs := by
  obtain ⟨h1, h2, h3⟩ := h
  have := congrArg List.length h3
  simp at this
  unfold ArrayString.len
  omega

theorem Holds.le (h : Holds s cs) : byteLen cs ≤ N := h.len ▸ h.2.1

theorem Holds.take (h : Holds s cs) : s.array.take (byteLen cs) = utf8 cs := by
  have := h.2.2
  rwa [show s.size.toNat = byteLen cs from h.len] at this

theorem Holds.unique {cs' : List Char} (h : Holds s cs) (h' : Holds s cs') : cs = cs' :=
  utf8_injective (h.2.2.symm.trans h'.2.2)

theorem Holds.asRefBytes (h : Holds s cs) : (s.asRefBytes : Res ε Bytes) = .ok (utf8 cs) := by
  have h2 := h.2.1
  unfold ArrayString.asRefBytes getUncheckedTo ArrayString.len
  rw [debugAssert_true (by simpa using h2), Res.bind_ok, if_pos (by rw [h.1]; exact h2), h.2.2]

theorem Holds.asRefStr (h : Holds s cs) : (s.asRefStr : Res ε Bytes) = .ok (utf8 cs) := by
  unfold ArrayString.asRefStr
  rw [h.asRefBytes]
  simp [Str.fromUtf8Unchecked, debugAssert_true]

theorem Holds.asStr (h : Holds s cs) : (s.asStr : Res ε Bytes) = .ok (utf8 cs) := h.asRefStr

theorem Holds.isCharBoundary_true (h : Holds s cs) {i : Nat} (hi : IsBoundary cs i) :
    s.isCharBoundary i = .ok () := by
  unfold ArrayString.isCharBoundary
  rw [h.asStr]
  simp [(isCharBoundary_utf8 cs i).2 hi]

theorem Holds.isCharBoundary_false (h : Holds s cs) {i : Nat} (hi : ¬ IsBoundary cs i) :
    s.isCharBoundary i = .err {} := by
  unfold ArrayString.isCharBoundary
  rw [h.asStr]
  simp [mt (isCharBoundary_utf8 cs i).1 hi]

theorem holds_new : Holds (ArrayString.new : ArrayString N) [] := by
  simp [Holds, ArrayString.new]

/-- Building a `Holds` from the buffer. -/
theorem Holds.mk' {mem : Bytes} {n : Nat} (hN : N ≤ 255) (hl : mem.length = N) (hn : n = byteLen cs)
    (hle : n ≤ N) (ht : mem.take n = utf8 cs) : Holds (⟨mem, intoLossy n⟩ : ArrayString N) cs := by
  have : (intoLossy n).toNat = n := by simp [intoLossy, UInt8.toNat_ofNat']; omega
  refine ⟨hl, ?_, ?_⟩ <;> simp only [this]
  · exact hle
  · exact ht

/-- The bytes written by the unsafe block of `replace_range`, as a fact about lists. -/
theorem replace_bytes {arr P Mi Q W rest : Bytes} (harr : arr = P ++ Mi ++ Q ++ rest)
    (hlen : P.length + W.length + Q.length ≤ arr.length) :
    ∃ mem1 mem2 : Bytes, 
      (if P.length + Mi.length ≠ P.length + W.length then
        (memCopy arr (P.length + Mi.length) (P.length + W.length) Q.length : Res ε Bytes)
        else .ok arr) = .ok mem1 ∧
      (if ¬ W.isEmpty then (memCopyFrom mem1 W P.length W.length : Res ε Bytes) else .ok mem1)
        = .ok mem2 ∧
      mem2.length = arr.length ∧ mem2.take (P.length + W.length + Q.length) = P ++ W ++ Q := by
  have hal : arr.length = P.length + Mi.length + Q.length + rest.length := by
    rw [harr]; simp only [List.length_append]
  -- first copy
  have h1 : ∃ mem1 : Bytes, (if P.length + Mi.length ≠ P.length + W.length then
        (memCopy arr (P.length + Mi.length) (P.length + W.length) Q.length : Res ε Bytes)
        else .ok arr) = .ok mem1 ∧ mem1.length = arr.length ∧ mem1.take P.length = P ∧
        (mem1.drop (P.length + W.length)).take Q.length = Q := by
    by_cases h : P.length + Mi.length = P.length + W.length
    · refine ⟨arr, by simp [h], rfl, ?_, ?_⟩
      · rw [harr]; simp
      · rw [← h, harr]
        rw [show P ++ Mi ++ Q ++ rest = (P ++ Mi) ++ (Q ++ rest) by simp]
        rw [List.drop_left' (by simp)]; simp
    · rw [if_pos h]
      unfold memCopy
      rw [if_pos (by omega)]
      have hQ : (arr.drop (P.length + Mi.length)).take Q.length = Q := by
        rw [harr, show P ++ Mi ++ Q ++ rest = (P ++ Mi) ++ (Q ++ rest) by simp]
        rw [List.drop_left' (by simp)]; simp
      rw [hQ]
      have hT : (arr.take (P.length + W.length)).length = P.length + W.length := by
        simp; omega
      refine ⟨_, rfl, ?_, ?_, ?_⟩
      · simp; omega
      · rw [List.append_assoc, List.take_append_of_le_length (by omega)]
        rw [List.take_take, Nat.min_eq_left (by omega), harr]; simp
      · rw [List.append_assoc, List.drop_left' hT]; simp
  obtain ⟨mem1, e1, l1, t1, d1⟩ := h1
  refine ⟨mem1, ?_⟩
  by_cases hw : W = []
  · subst hw
    refine ⟨mem1, e1, by simp, l1, ?_⟩
    simp at d1 ⊢
    rw [List.take_add, t1, d1]
  · refine ⟨mem1.take P.length ++ W ++ mem1.drop (P.length + W.length), e1, ?_, ?_, ?_⟩
    · unfold memCopyFrom
      rw [if_pos (by simpa using hw), if_pos (by omega)]
      simp
    · simp; omega
    · rw [t1]
      rw [List.take_append, List.take_of_length_le (by simp)]
      simp only [List.length_append]
      rw [show P.length + W.length + Q.length - (P.length + W.length) = Q.length by omega, d1]

open ArrayString in
/-- `replace_range`, successful case. -/
theorem replaceRange_ok (hN : N ≤ 255) {p m q w : List Char} {r : RangeB}
    (h : Holds s (p ++ m ++ q))
    (hs : rangeStart r = byteLen p) (he : rangeEnd r s.len = byteLen p + byteLen m)
    (hfit : byteLen p + byteLen w + byteLen q ≤ N) :
    ∃ s' : ArrayString N, replaceRange r (utf8 w) s = (.ok (), s') ∧ Holds s' (p ++ w ++ q) := by
  have hlen : s.len = byteLen p + byteLen m + byteLen q := by rw [h.len]; simp only [byteLen_append]
  have hle := h.le
  have hM := usizeMax_ge
  simp only [byteLen_append] at hle
  unfold replaceRange
  simp only [M.bind_apply, M.self_apply, hs, he]
  by_cases hem : byteLen p = byteLen p + byteLen m ∧ (utf8 w).isEmpty = true
  · rw [if_pos hem]
    refine ⟨s, rfl, ?_⟩
    have h1 : m = [] := byteLen_eq_zero.1 (by omega)
    have h2 : w = [] := by simpa [utf8_eq_nil] using hem.2
    subst h1 h2; simpa using h
  rw [if_neg hem]
  have hb1 : IsBoundary (p ++ m ++ q) (byteLen p) := ⟨p, m ++ q, by simp, rfl⟩
  have hb2 : IsBoundary (p ++ m ++ q) (byteLen p + byteLen m) := ⟨p ++ m, q, by simp, by simp⟩
  have hsplit : s.array = utf8 p ++ utf8 m ++ utf8 q ++ s.array.drop (byteLen (p ++ m ++ q)) := by
    conv => lhs; rw [← List.take_append_drop (byteLen (p ++ m ++ q)) s.array]
    rw [h.take]; simp
  obtain ⟨mem1, mem2, e1, e2, hl, ht⟩ := replace_bytes (ε := Error) (W := utf8 w) hsplit
    (by simp only [length_utf8]; rw [h.1]; exact hfit)
  simp only [length_utf8] at e1 e2 ht
  simp only [M.bind_apply, M.try_apply, M.lift_apply, hlen, length_utf8, capacity,
    h.isCharBoundary_true hb1, h.isCharBoundary_true hb2, Res.mapErr_ok,
    isInsideBoundary_ok (show byteLen p ≤ byteLen p + byteLen m by omega),
    isInsideBoundary_ok (show byteLen p + byteLen m ≤ byteLen p + byteLen m + byteLen q by omega),
    isInsideBoundary_ok (show byteLen w ≤ N by omega),
    addUsize_ok (show byteLen p + byteLen m + byteLen q + byteLen w ≤ usizeMax by omega),
    addUsize_ok (show byteLen p + byteLen m + byteLen q + byteLen w + byteLen p ≤ usizeMax by omega),
    subUsize_ok (show byteLen p + byteLen m ≤
      byteLen p + byteLen m + byteLen q + byteLen w + byteLen p by omega),
    isInsideBoundary_ok (show byteLen p + byteLen m + byteLen q + byteLen w + byteLen p -
      (byteLen p + byteLen m) ≤ N by omega),
    ptrAdd_ok (show byteLen p ≤ N by omega), ptrAdd_ok (show byteLen p + byteLen m ≤ N by omega),
    ptrAdd_ok (show byteLen p + byteLen w ≤ N by omega),
    subUsize_ok (show byteLen p + byteLen m ≤ byteLen p + byteLen m + byteLen q by omega),
    show byteLen p + byteLen m + byteLen q - (byteLen p + byteLen m) = byteLen q by omega,
    e1, e2, M.setSelf_apply]
  refine ⟨_, rfl, ?_⟩
  apply Holds.mk' hN (hl.trans h.1) (by simp; omega) (by omega)
  rw [show byteLen p + byteLen m + byteLen q + byteLen w + byteLen p - (byteLen p + byteLen m)
    = byteLen p + byteLen w + byteLen q by omega, ht]
  simp

end
end Verif
