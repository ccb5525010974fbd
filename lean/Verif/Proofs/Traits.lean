import Verif.Proofs.Iter
import Verif.Proofs.Order
import Verif.Model.Traits
import Verif.Spec.Retain
import Verif.Spec.Deque
import Verif.Spec.Index

/-! # `retain`, `Drain`, and the trait implementations -/

namespace Verif
open Spec ArrayString

variable {N : Nat} {ε φ ω κ η : Type} {s : ArrayString N} {cs : List Char}

/-! ## `retain` -/

theorem filterIter_keep {f : Pred φ} {q q' : φ} {cs out : List Char} (h : keep f q cs = some (out, q')) :
    ∃ k, Yields (filterIter f) (cs, q) out k ∧ filterIter f k = .done ([], q') := by
  induction cs generalizing q out with
  | nil =>
    simp only [keep, Option.some.injEq, Prod.mk.injEq] at h
    obtain ⟨rfl, rfl⟩ := h
    exact ⟨_, .nil _, rfl⟩
  | cons c cs ih =>
    simp only [keep] at h
    split at h
    · simp at h
    · rename_i b q1 hf
      split at h
      · simp at h
      · rename_i o q2 hk
        simp only [Option.some.injEq, Prod.mk.injEq] at h
        obtain ⟨rfl, rfl⟩ := h
        obtain ⟨k, hy, hd⟩ := ih hk
        cases b with
        | true =>
          refine ⟨k, ?_, hd⟩
          simp only [if_true]
          exact .cons (by simp [filterIter, filterNext, hf]) hy
        | false =>
          simp only [Bool.false_eq_true, if_false]
          have hsame : filterIter f (c :: cs, q) = filterIter f (cs, q1) := by
            simp [filterIter, filterNext, hf]
          cases hy with
          | nil => exact ⟨(c :: cs, q), .nil _, by rw [hsame]; exact hd⟩
          | cons e hy => exact ⟨k, .cons (by rw [hsame]; exact e) hy, hd⟩

theorem filterIter_panic {f : Pred φ} {q : φ} {cs : List Char} (h : keep f q cs = none) :
    ∃ w k, Yields (filterIter f) (cs, q) w k ∧ filterIter f k = .panic ∧ byteLen w ≤ byteLen cs := by
  induction cs generalizing q with
  | nil => simp [keep] at h
  | cons c cs ih =>
    simp only [keep] at h
    split at h
    · rename_i hf
      exact ⟨[], _, .nil _, by simp [filterIter, filterNext, hf], by simp⟩
    · rename_i b q1 hf
      split at h
      · rename_i hk
        obtain ⟨w, k, hy, hd, hl⟩ := ih hk
        cases b with
        | true =>
          exact ⟨c :: w, k, .cons (by simp [filterIter, filterNext, hf]) hy, hd, by simp; omega⟩
        | false =>
          have hsame : filterIter f (c :: cs, q) = filterIter f (cs, q1) := by
            simp [filterIter, filterNext, hf]
          cases hy with
          | nil => exact ⟨[], (c :: cs, q), .nil _, by rw [hsame]; exact hd, by simp⟩
          | cons e hy => exact ⟨_, k, .cons (by rw [hsame]; exact e) hy, hd, by simp at hl ⊢; omega⟩
      · simp at h

theorem keep_byteLen {f : φ → Char → Option (Bool × φ)} {q q' : φ} {cs out : List Char}
    (h : keep f q cs = some (out, q')) : byteLen out ≤ byteLen cs := by
  induction cs generalizing q out with
  | nil => simp [keep] at h; simp [← h.1]
  | cons c cs ih =>
    simp only [keep] at h
    split at h
    · simp at h
    · split at h
      · simp at h
      · rename_i b q1 _ _ o q2 hk
        simp only [Option.some.injEq, Prod.mk.injEq] at h
        obtain ⟨rfl, rfl⟩ := h
        have := ih hk
        cases b <;> simp <;> omega

theorem retain_ok (hN : N ≤ 255) {f : Pred φ} {q q' : φ} {out : List Char} (hs : Holds s cs)
    (h : keep f q cs = some (out, q')) :
    ∃ s' : ArrayString N, (retain f q : M (ArrayString N) ε φ) s = (.ok q', s') ∧ Holds s' out := by
  obtain ⟨k, hy, hd⟩ := filterIter_keep h
  have hl := keep_byteLen h
  have hle := hs.le
  obtain ⟨s', e, hh⟩ := fromCharsTruncate_done (N := N) (ε := ε) hN hy hd (by omega)
  refine ⟨s', ?_, hh⟩
  unfold retain
  simp [M.bind_apply, hs.asStr, e]

theorem retain_panic (hN : N ≤ 255) {f : Pred φ} {q : φ} (hs : Holds s cs) (h : keep f q cs = none) :
    (retain f q : M (ArrayString N) ε φ) s = (.panic, s) := by
  obtain ⟨w, k, hy, hd, hl⟩ := filterIter_panic h
  have hle := hs.le
  have e := fromCharsTruncate_panic (N := N) (ε := ε) hN hy hd (by omega)
  unfold retain
  simp [M.bind_apply, hs.asStr, e]

/-! ## `Drain` -/

theorem drain_next_cons (hN : N ≤ 255) {d : Drain N} {c : Char} (hd : Holds d.inner (c :: cs)) :
    ∃ d' : Drain N, (Drain.next : M (Drain N) ε _) d = (.ok (some c), d') ∧ Holds d'.inner cs := by
  obtain ⟨s', e, hh⟩ := remove_ok hN (p := []) (q := cs) (c := c) (by simpa using hd)
  refine ⟨⟨s'⟩, ?_, by simpa using hh⟩
  unfold Drain.next
  simp only [M.bind_apply, M.attempt_apply, Drain.onInner]
  simp only [byteLen_nil] at e
  simp [e]

theorem drain_next_nil (hN : N ≤ 255) {d : Drain N} (hd : Holds d.inner []) :
    (Drain.next : M (Drain N) ε _) d = (.ok none, d) := by
  have e := remove_oob hN (i := 0) hd (by simp)
  unfold Drain.next
  simp only [M.bind_apply, M.attempt_apply, Drain.onInner]
  simp [e]

theorem drain_nextBack_snoc {d : Drain N} {c : Char} (hd : Holds d.inner (cs ++ [c])) :
    ∃ d' : Drain N, (Drain.nextBack : M (Drain N) ε _) d = (.ok (some c), d') ∧ Holds d'.inner cs := by
  obtain ⟨s', e, hh⟩ := pop_append (ε := ε) (c := c) hd
  refine ⟨⟨s'⟩, ?_, hh⟩
  unfold Drain.nextBack Drain.onInner
  simp [e]

theorem drain_nextBack_nil {d : Drain N} (hd : Holds d.inner []) :
    (Drain.nextBack : M (Drain N) ε _) d = (.ok none, d) := by
  have e := pop_nil (ε := ε) hd
  unfold Drain.nextBack Drain.onInner
  simp [e]

/-! ## `Extend`, `Add`, `Write` -/

theorem extendChars_of {it : Iter κ Char} {k k' : κ} {w : List Char} {t : ArrayString N} (hN : N ≤ 255)
    (hs : Holds s cs) (e : (fromCharsTruncate it k : Res ε _) = .ok (t, k')) (ht : Holds t w) :
    ∃ s' : ArrayString N, (extendChars it k : M (ArrayString N) ε κ) s = (.ok k', s') ∧
      Holds s' (cs ++ takeFit (N - byteLen cs) w) := by
  obtain ⟨s', e2, hh⟩ := pushStrTruncate_ok (ε := ε) hN w hs
  refine ⟨s', ?_, hh⟩
  unfold extendChars
  simp [M.bind_apply, e, ht.asRefStr, e2]

theorem extendStrs_of {it : Iter κ AsRefTwice} {k k' : κ} {w : List Char} {t : ArrayString N} (hN : N ≤ 255)
    (hs : Holds s cs) (e : (fromIteratorTruncate it k : Res ε _) = .ok (t, k')) (ht : Holds t w) :
    ∃ s' : ArrayString N, (extendStrs it k : M (ArrayString N) ε κ) s = (.ok k', s') ∧
      Holds s' (cs ++ takeFit (N - byteLen cs) w) := by
  obtain ⟨s', e2, hh⟩ := pushStrTruncate_ok (ε := ε) hN w hs
  refine ⟨s', ?_, hh⟩
  unfold extendStrs
  simp [M.bind_apply, e, ht.asRefStr, e2]

theorem extendChars_list (hN : N ≤ 255) (hs : Holds s cs) (w : List Char) :
    ∃ (s' : ArrayString N) (k : List Char), (extendChars listIter w : M (ArrayString N) ε _) s = (.ok k, s') ∧
      Holds s' (cs ++ takeFit (N - byteLen cs) w) := by
  obtain ⟨t, k, e, ht, _⟩ := fromCharsTruncate_list (ε := ε) hN w
  obtain ⟨s', e2, hh⟩ := extendChars_of (ε := ε) hN hs e ht
  rw [takeFit_extend _ _ hs.le] at hh
  exact ⟨s', k, e2, hh⟩

theorem extendStrs_list (hN : N ≤ 255) (hs : Holds s cs) (ws : List (List Char)) :
    ∃ (s' : ArrayString N) (k : List AsRefTwice),
      (extendStrs listIter (ws.map honest) : M (ArrayString N) ε _) s = (.ok k, s') ∧
      Holds s' (cs ++ takeFit (N - byteLen cs) ws.flatten) := by
  obtain ⟨t, k, e, ht, _⟩ := fromIteratorTruncate_list (ε := ε) hN ws
  obtain ⟨s', e2, hh⟩ := extendStrs_of (ε := ε) hN hs e ht
  rw [takeFit_extend _ _ hs.le] at hh
  exact ⟨s', k, e2, hh⟩

theorem extendChars_panic {it : Iter κ Char} {k : κ} (e : (fromCharsTruncate it k : Res ε (ArrayString N × κ)) = .panic) :
    (extendChars it k : M (ArrayString N) ε κ) s = (.panic, s) := by
  unfold extendChars
  simp [M.bind_apply, e]

theorem extendStrs_panic {it : Iter κ AsRefTwice} {k : κ}
    (e : (fromIteratorTruncate it k : Res ε (ArrayString N × κ)) = .panic) :
    (extendStrs it k : M (ArrayString N) ε κ) s = (.panic, s) := by
  unfold extendStrs
  simp [M.bind_apply, e]

theorem add_ok (hN : N ≤ 255) (hs : Holds s cs) (w : List Char) :
    ∃ s' : ArrayString N, (s.add (utf8 w) : Res ε _) = .ok s' ∧ Holds s' (cs ++ takeFit (N - byteLen cs) w) := by
  obtain ⟨s', e, hh⟩ := pushStrTruncate_ok (ε := ε) hN w hs
  refine ⟨s', ?_, hh⟩
  unfold add M.onLocal
  rw [e]; rfl

theorem writeStr_ok (hN : N ≤ 255) {w : List Char} (hs : Holds s cs) (h : byteLen cs + byteLen w ≤ N) :
    ∃ s' : ArrayString N, ArrayString.writeStr (utf8 w) s = (.ok (), s') ∧ Holds s' (cs ++ w) := by
  obtain ⟨s', e, hh⟩ := tryPushStr_ok hN hs h
  exact ⟨s', by simp [ArrayString.writeStr, e], hh⟩

theorem writeStr_err (hN : N ≤ 255) {w : List Char} (hs : Holds s cs) (h : N < byteLen cs + byteLen w) :
    ArrayString.writeStr (utf8 w) s = (.err {}, s) := by
  simp [ArrayString.writeStr, tryPushStr_err hN hs h]

/-! ## `Index`, `IndexMut`, `AsMut` -/

theorem index_str_ok {p m q : List Char} :
    (Str.index (utf8 (p ++ m ++ q)) (byteLen p) (byteLen p + byteLen m) : Res ε Bytes) = .ok (utf8 m) := by
  have hb : IsBoundary (p ++ m ++ q) (byteLen p) := ⟨p, m ++ q, by simp, rfl⟩
  have hb2 : IsBoundary (p ++ m ++ q) (byteLen p + byteLen m) := ⟨p ++ m, q, by simp, by simp⟩
  unfold Str.index Str.get?
  rw [if_pos ⟨by omega, (isCharBoundary_utf8 _ _).2 hb, (isCharBoundary_utf8 _ _).2 hb2⟩]
  simp only
  rw [List.append_assoc, utf8_append, List.drop_left' (by simp), utf8_append, List.take_left' (by simp)]

theorem index_str_panic {a b : Nat} (h : ¬ (a ≤ b ∧ IsBoundary cs a ∧ IsBoundary cs b)) :
    (Str.index (utf8 cs) a b : Res ε Bytes) = .panic := by
  unfold Str.index Str.get?
  rw [if_neg]
  rw [isCharBoundary_utf8, isCharBoundary_utf8]
  exact h

theorem u8_lt_usizeMax (b : UInt8) : b.toNat ≠ usizeMax := by
  have := usizeMax_ge; have := b.toNat_lt; omega

theorem asMutStr_ok {cs' : List Char} {edit : Bytes → Bytes} (hs : Holds s cs) (he : edit (utf8 cs) = utf8 cs')
    (hl : byteLen cs' = byteLen cs) :
    (asMutStr edit : M (ArrayString N) ε Unit) s = (.ok (), { s with array := utf8 cs' ++ s.array.drop (byteLen cs) }) ∧
      Holds ({ s with array := utf8 cs' ++ s.array.drop (byteLen cs) } : ArrayString N) cs' := by
  have hle := hs.le
  have hsz : s.size.toNat = byteLen cs := hs.len
  have h1 := hs.1
  constructor
  · unfold asMutStr asMut
    simp [M.bind_apply, hs.len, debugAssert, getUncheckedTo, hs.1, hle, hs.take, Str.fromUtf8Unchecked, he, hl]
  · refine ⟨?_, ?_, ?_⟩
    · simp; omega
    · simp [hsz]; exact hle
    · simp only [hsz]
      rw [List.take_left' (by simp [hl])]

/-! ### Indices -/

theorem resolve_eq (len : Nat) (i : IdxU8) : i.toUsize.resolve len = some (idxRange len i) := by
  cases i <;> simp [IdxU8.toUsize, IdxUsize.resolve, idxRange, u8_lt_usizeMax]

theorem sliceOk_iff {r : Nat × Nat} : SliceOk cs r ↔ ∃ p m q, SliceAt cs r p m q := by
  constructor
  · rintro ⟨h, ha, hb⟩
    obtain ⟨p, m, q, h1, h2, h3⟩ := cut_three ha hb h
    exact ⟨p, m, q, h1, h2, by simpa using h3⟩
  · rintro ⟨p, m, q, rfl, h2, h3⟩
    refine ⟨?_, ⟨p, m ++ q, by simp, h2⟩, ⟨p ++ m, q, rfl, h3⟩⟩
    simp at h3; omega

theorem index_ok {i : IdxU8} {p m q : List Char} (hs : Holds s cs)
    (h : SliceAt cs (idxRange (byteLen cs) i) p m q) : (s.index i : Res ε Bytes) = .ok (utf8 m) := by
  unfold ArrayString.index
  rw [hs.asStr, Res.bind_ok, length_utf8, resolve_eq]
  obtain ⟨h1, h2, h3⟩ := h
  simp only [← h2, ← h3, byteLen_append]
  rw [h1]; exact index_str_ok

theorem index_panic {i : IdxU8} (hs : Holds s cs) (h : ¬ SliceOk cs (idxRange (byteLen cs) i)) :
    (s.index i : Res ε Bytes) = .panic := by
  unfold ArrayString.index
  rw [hs.asStr, Res.bind_ok, length_utf8, resolve_eq]
  exact index_str_panic h

theorem indexMut_ok {i : IdxU8} {p m q m' : List Char} {edit : Bytes → Bytes} (hs : Holds s cs)
    (h : SliceAt cs (idxRange (byteLen cs) i) p m q) (he : edit (utf8 m) = utf8 m') (hl : byteLen m' = byteLen m) :
    ∃ s' : ArrayString N, (indexMut i edit : M (ArrayString N) ε Unit) s = (.ok (), s') ∧ Holds s' (p ++ m' ++ q) ∧
      s'.size = s.size ∧ s'.array.drop s.len = s.array.drop s.len := by
  have hle := hs.le
  have hsz : s.size.toNat = byteLen cs := hs.len
  have h1 := hs.1
  obtain ⟨hc, hp, hm⟩ := h
  have hx : (idxRange (byteLen cs) i) = (byteLen p, byteLen p + byteLen m) := by
    rw [Prod.ext_iff]; exact ⟨hp.symm, by simpa using hm.symm⟩
  have hlen : byteLen cs = byteLen p + byteLen m + byteLen q := by rw [hc]; simp; omega
  have harr : s.array = utf8 p ++ utf8 m ++ utf8 q ++ s.array.drop (byteLen cs) := by
    have := List.take_append_drop (byteLen cs) s.array
    rw [hs.take, hc] at this
    simpa [hc] using this.symm
  have htake : s.array.take (byteLen p) = utf8 p := by
    rw [harr]; simp
  have hdrop : s.array.drop (byteLen p + byteLen m) = utf8 q ++ s.array.drop (byteLen cs) := by
    have : (utf8 p ++ utf8 m ++ utf8 q ++ s.array.drop (byteLen cs)).drop (byteLen p + byteLen m) =
        utf8 q ++ s.array.drop (byteLen cs) := by
      rw [List.append_assoc, List.drop_left' (by simp)]
    rwa [← harr] at this
  refine ⟨{ s with array := s.array.take (byteLen p) ++ utf8 m' ++ s.array.drop (byteLen p + byteLen m) }, ?_, ?_, rfl, ?_⟩
  · unfold indexMut
    simp only [M.bind_apply, M.self_apply, M.lift_apply, hs.len]
    rw [debugAssert_true (by simpa using hle)]
    simp only [getUncheckedTo, hs.1, hle, if_true, hs.take]
    rw [debugAssert_true (by simp)]
    simp only [Str.fromUtf8Unchecked, validUtf8_utf8, if_true, length_utf8]
    rw [resolve_eq, hx]
    simp only [M.bind_apply, M.lift_apply]
    have hidx := index_str_ok (ε := ε) (p := p) (m := m) (q := q)
    rw [← hc] at hidx
    rw [hidx]
    simp [he, hl]
  · rw [htake, hdrop]
    refine ⟨?_, ?_, ?_⟩
    · simp; omega
    · simp [hsz]; exact hle
    · simp only [hsz]
      rw [← List.append_assoc, List.take_left' (by simp; omega)]
      simp
  · rw [htake, hdrop, hs.len, ← List.append_assoc, List.drop_left' (by simp; omega)]

theorem indexMut_panic {i : IdxU8} {edit : Bytes → Bytes} (hs : Holds s cs)
    (h : ¬ SliceOk cs (idxRange (byteLen cs) i)) :
    (indexMut i edit : M (ArrayString N) ε Unit) s = (.panic, s) := by
  have hle := hs.le
  unfold indexMut
  simp only [M.bind_apply, M.self_apply, M.lift_apply, hs.len]
  rw [debugAssert_true (by simpa using hle)]
  simp only [getUncheckedTo, hs.1, hle, if_true, hs.take]
  rw [debugAssert_true (by simp)]
  simp only [Str.fromUtf8Unchecked, validUtf8_utf8, if_true, length_utf8]
  rw [resolve_eq]
  simp only [M.bind_apply, M.lift_apply]
  rw [index_str_panic h]

end Verif
