import Verif.Props.Sample
import Verif.Proofs.Endless
import Verif.Proofs.Utf16

/-!
# Properties of the constructors

A constructor is a function of its arguments giving an outcome `Res`.  Iterator arguments are state
machines; the constructors over iterators also return the iterator's final state, so what was
consumed is visible.  `listIter` iterates over a finite list, whose state is the list still to come.
-/

namespace Verif
open Spec ArrayString

variable {N : Nat} [ValidCapacity N] {ε κ : Type}

/-- C08: `try_from_str` and `FromStr`. -/
theorem C08_try_from_str (w : List Char) :
    (byteLen w ≤ N → ∃ s : ArrayString N, tryFromStr (utf8 w) = .ok s ∧ Holds s w) ∧
    (N < byteLen w → (tryFromStr (utf8 w) : Res _ (ArrayString N)) = .err {}) ∧
    (fromStr (utf8 w) : Res _ (ArrayString N)) = tryFromStr (utf8 w) :=
  ⟨tryFromStr_ok ValidCapacity.le, tryFromStr_err ValidCapacity.le, rfl⟩

example : byteLen ['é', '𝄞'] ≤ 8 ∧ 3 < byteLen ['é', '𝄞'] := by decide

/-- C09: `from_str_truncate` and `From<&str>`. -/
theorem C09_from_str_truncate (w : List Char) :
    ∃ (s : ArrayString N) (pre : List Char), (fromStrTruncate (utf8 w) : Res ε _) = .ok s ∧
      (from_ (utf8 w) : Res ε _) = .ok s ∧ Holds s pre ∧ LongestFit N w pre ∧
      (byteLen w ≤ N → pre = w) ∧
      (fromStrTruncate (utf8 pre) : Res ε _) = .ok s := by
  obtain ⟨s, e, h⟩ := fromStrTruncate_ok (N := N) (ε := ε) ValidCapacity.le w
  refine ⟨s, _, e, e, h, longestFit_takeFit _ _, takeFit_of_le, ?_⟩
  -- the second run starts from the same empty string and pushes the same bytes
  have ht : takeFit N (takeFit N w) = takeFit N w := takeFit_takeFit (Nat.le_refl N) w
  have hcongr : ∀ u v : List Char, takeFit N u = takeFit N v →
      (fromStrTruncate (utf8 u) : Res ε (ArrayString N)) = fromStrTruncate (utf8 v) := by
    intro u v huv
    have e0 : (truncateStr (utf8 u) N : Res ε _) = truncateStr (utf8 v) N := by
      rw [truncateStr_utf8, truncateStr_utf8, huv]
    have e1 : (pushStrTruncate (utf8 u) : M (ArrayString N) ε Unit) new = pushStrTruncate (utf8 v) new := by
      unfold pushStrTruncate
      simp only [M.bind_apply, M.self_apply, M.lift_apply]
      rw [subUsize_ok (by simp [ArrayString.len, ArrayString.new])]
      have hz : capacity N - (new : ArrayString N).len = N := by simp [capacity, ArrayString.len, ArrayString.new]
      simp only [hz, e0]
    unfold fromStrTruncate M.onLocal
    rw [e1]
  rw [hcongr _ w ht, e]

example : LongestFit 3 ['é', '𝄞'] ['é'] := ⟨['𝄞'], rfl, by decide, by intro c r h; cases h; decide⟩

/-- C10. -/
theorem C10_try_from_iterator (ws : List (List Char)) :
    (byteLen ws.flatten ≤ N →
      ∃ s : ArrayString N, tryFromIterator listIter (ws.map utf8) = .ok (s, []) ∧ Holds s ws.flatten) ∧
    (N < byteLen ws.flatten →
      (tryFromIterator listIter (ws.map utf8) : Res _ (ArrayString N × _)) = .err {}) :=
  ⟨tryFromIterator_list_ok ValidCapacity.le, tryFromIterator_list_err ValidCapacity.le⟩

/-- C10 for an arbitrary iterator of strings (finite, infinite or panicking): either the loop reaches
the end, a panic, or a piece that does not fit, after finitely many pieces, or it never stops because
the pieces go on for ever without filling the string. -/
theorem C10_try_from_iterator_any (it : Iter κ Bytes) (ht : TextItems' it) (k : κ) :
    (∃ (ws : List (List Char)) (k1 : κ), Yields it k (ws.map utf8) k1 ∧ byteLen ws.flatten ≤ N ∧
      ((∃ (s : ArrayString N) (k2 : κ), it k1 = .done k2 ∧ tryFromIterator it k = .ok (s, k2) ∧ Holds s ws.flatten) ∨
       (it k1 = .panic ∧ (tryFromIterator it k : Res _ (ArrayString N × κ)) = .panic) ∨
       (∃ w k2, it k1 = .item (utf8 w) k2 ∧ N < byteLen ws.flatten + byteLen w ∧
         (tryFromIterator it k : Res _ (ArrayString N × κ)) = .err {}))) ∨
    (Endless' it N k ∧ (tryFromIterator it k : Res _ (ArrayString N × κ)) = .diverge) := by
  rcases stops_or_endless' ht N k with ⟨ws, k1, hy, hb, h⟩ | h
  · left
    refine ⟨ws, k1, hy, hb, ?_⟩
    rcases h with ⟨k2, e⟩ | e | ⟨w, k2, e, ho⟩
    · obtain ⟨s, e2, hs⟩ := tryFromIterator_done (N := N) ValidCapacity.le hy e hb
      exact .inl ⟨s, k2, e, e2, hs⟩
    · exact .inr (.inl ⟨e, tryFromIterator_panic ValidCapacity.le hy e hb⟩)
    · exact .inr (.inr ⟨w, k2, e, ho, tryFromIterator_over ValidCapacity.le hy e hb ho⟩)
  · exact .inr ⟨h, tryFromIterator_endless ValidCapacity.le h⟩

example : byteLen [['é'], [], ['𝄞', 'a']].flatten ≤ 8 ∧ 3 < byteLen [['é'], [], ['𝄞', 'a']].flatten := by decide
example : TextItems' (fun (_ : Unit) => .item (utf8 ['é']) ()) :=
  fun _ _ _ h => ⟨['é'], by simp only [Step.item.injEq] at h; exact h.1.symm⟩

/-- C11: `from_iterator_truncate` and `FromIterator<&str>` hold the longest fitting prefix of the
concatenation; pieces after the first one that does not fit are not pulled from the iterator. -/
theorem C11_from_iterator_truncate (ws : List (List Char)) :
    ∃ (s : ArrayString N) (left : List AsRefTwice) (pre : List Char),
      (fromIteratorTruncate listIter (ws.map honest) : Res ε _) = .ok (s, left) ∧
      (fromIterStrs listIter (ws.map honest) : Res ε _) = .ok (s, left) ∧
      Holds s pre ∧ LongestFit N ws.flatten pre ∧
      (left = [] ∧ byteLen ws.flatten ≤ N ∨
        ∃ a w b, ws = a ++ w :: b ∧ byteLen a.flatten ≤ N ∧ N < byteLen a.flatten + byteLen w ∧
          left = b.map honest) := by
  obtain ⟨s, k, e, h, h'⟩ := fromIteratorTruncate_list (N := N) (ε := ε) ValidCapacity.le ws
  exact ⟨s, k, _, e, e, h, longestFit_takeFit _ _, h'⟩

example : LongestFit 8 [['é'], [], ['𝄞', 'a', 'b', 'c'], ['d']].flatten ['é', '𝄞', 'a', 'b'] :=
  ⟨['c', 'd'], rfl, by decide, by intro c r h; cases h; decide⟩

/-- C12: `try_from_chars`. -/
theorem C12_try_from_chars (w : List Char) :
    (byteLen w ≤ N → ∃ s : ArrayString N, tryFromChars listIter w = .ok (s, []) ∧ Holds s w) ∧
    (N < byteLen w → (tryFromChars listIter w : Res _ (ArrayString N × _)) = .err {}) :=
  ⟨tryFromChars_list_ok ValidCapacity.le, tryFromChars_list_err ValidCapacity.le⟩

/-- C12: `from_chars_truncate` and `FromIterator<char>`; at most one character that does not fit is
taken from the iterator. -/
theorem C12_from_chars_truncate (w : List Char) :
    ∃ (s : ArrayString N) (left pre : List Char), (fromCharsTruncate listIter w : Res ε _) = .ok (s, left) ∧
      (fromIterChars listIter w : Res ε _) = .ok (s, left) ∧
      Holds s pre ∧ LongestFit N w pre ∧
      (left = [] ∧ byteLen w ≤ N ∨ ∃ c, w = pre ++ c :: left) := by
  obtain ⟨s, k, e, h, h'⟩ := fromCharsTruncate_list (N := N) (ε := ε) ValidCapacity.le w
  exact ⟨s, k, _, e, e, h, longestFit_takeFit _ _, h'⟩

example : byteLen ['é', '𝄞'] ≤ 8 ∧ 3 < byteLen ['é', '𝄞'] := by decide

/-- C13: valid UTF-16. -/
theorem C13_try_from_utf16_valid (cs : List Char) :
    (byteLen cs ≤ N → ∃ s : ArrayString N, tryFromUtf16 (utf16 cs) = .ok s ∧ Holds s cs) ∧
    (N < byteLen cs → (tryFromUtf16 (utf16 cs) : Res Error (ArrayString N)) = .err .outOfBounds) := by
  obtain ⟨h1, -, h3⟩ := tryFromUtf16_spec (N := N) ValidCapacity.le (segments_utf16 cs)
  rw [leadingChars_map] at h1 h3
  exact ⟨fun h => h1 h ⟨cs, rfl⟩, h3⟩

/-- C13: any slice; `segs` is its decomposition (see C15), `leadingChars segs` the characters before
the first unpaired surrogate. -/
theorem C13_try_from_utf16_invalid (l : List UInt16) (segs : List Seg) (h : Segments l segs)
    (hi : ¬ ValidUtf16 l) :
    (tryFromUtf16 l : Res Error (ArrayString N)) =
      .err (if byteLen (leadingChars segs) ≤ N then .utf16 else .outOfBounds) := by
  obtain ⟨-, h2, h3⟩ := tryFromUtf16_spec (N := N) ValidCapacity.le h
  split
  · exact h2 ‹_› hi
  · exact h3 (by omega)

theorem segments_ab_lone : Segments [0x61, 0x62, 0xD800] [.chr 'a', .chr 'b', .lone 0xD800] := by
  refine ⟨by decide, ?_⟩
  simp [SegsOk, IsHigh]

theorem ab_lone_invalid : ¬ ValidUtf16 [0x61, 0x62, 0xD800] := by
  rw [validUtf16_iff segments_ab_lone]; decide

/-- An unpaired surrogate in the middle: the decomposition is not trivial. -/
example : Segments [0xD834, 0xDD1E, 0xDC00, 0xD800, 0x61]
    [.chr '𝄞', .lone 0xDC00, .lone 0xD800, .chr 'a'] := by
  refine ⟨by decide, ?_⟩
  simp [SegsOk, IsHigh, IsLow]

/-- C14: `from_utf16_truncate` on any slice. -/
theorem C14_from_utf16_truncate (l : List UInt16) (segs : List Seg) (h : Segments l segs) :
    (ValidUtf16 l ∨ N < byteLen (leadingChars segs) →
      ∃ (s : ArrayString N) (pre : List Char), fromUtf16Truncate l = .ok s ∧ Holds s pre ∧
        LongestFit N (leadingChars segs) pre) ∧
    (byteLen (leadingChars segs) ≤ N → ¬ ValidUtf16 l →
      (fromUtf16Truncate l : Res Utf16 (ArrayString N)) = .err {}) := by
  obtain ⟨h1, h2⟩ := fromUtf16Truncate_spec (N := N) ValidCapacity.le h
  refine ⟨fun hv => ?_, h2⟩
  obtain ⟨s, e, hs⟩ := h1 hv
  exact ⟨s, _, e, hs, longestFit_takeFit _ _⟩

/-- C14: on the encoding of a text it holds the longest fitting prefix of the text. -/
theorem C14_valid (cs : List Char) :
    ∃ (s : ArrayString N) (pre : List Char), fromUtf16Truncate (utf16 cs) = .ok s ∧ Holds s pre ∧
      LongestFit N cs pre := by
  have := (C14_from_utf16_truncate (N := N) _ _ (segments_utf16 cs)).1 (.inl ⟨cs, rfl⟩)
  rwa [leadingChars_map] at this

/-- C14, refutation: the documented "returns Utf16 on invalid utf-16 data" is false. -/
theorem C14_refuted : ¬ (∀ l : List UInt16, ¬ ValidUtf16 l →
    (fromUtf16Truncate l : Res Utf16 (ArrayString 1)) = .err {}) := by
  intro h
  obtain ⟨s, pre, e, -⟩ := (C14_from_utf16_truncate (N := 1) _ _ segments_ab_lone).1 (.inr (by decide))
  rw [h _ ab_lone_invalid] at e
  cases e

/-- C15. -/
theorem C15_from_utf16_lossy_truncate (l : List UInt16) (segs : List Seg) (h : Segments l segs) :
    ∃ (s : ArrayString N) (pre : List Char), (fromUtf16LossyTruncate l : Res ε _) = .ok s ∧ Holds s pre ∧
      LongestFit N (segs.map Seg.lossy) pre := by
  obtain ⟨s, e, hs⟩ := fromUtf16LossyTruncate_spec (N := N) (ε := ε) ValidCapacity.le h
  exact ⟨s, _, e, hs, longestFit_takeFit _ _⟩

/-- C15: the decomposition exists and is unique, for every slice; for the encoding of a text it is
the text. -/
theorem C15_segments (l : List UInt16) :
    (∃ segs, Segments l segs ∧ ∀ segs', Segments l segs' → segs' = segs) ∧
    (∀ cs, Segments (utf16 cs) (cs.map .chr)) := by
  obtain ⟨segs, h⟩ := exists_segments l
  exact ⟨⟨segs, h, fun _ h' => Segments.unique h' h⟩, segments_utf16⟩

/-- C42: for every iterator of characters, finite or not, `from_chars_truncate` stops after pulling
at most `N` fitting characters `w` and once more (`w.length + 1 ≤ N + 1` pulls in all); it returns
`w` unless that last pull panics. -/
theorem C42_chars (it : Iter κ Char) (k : κ) :
    ∃ w k1, Yields it k w k1 ∧ byteLen w ≤ N ∧ w.length ≤ N ∧
      ((∃ (s : ArrayString N) (k2 : κ),
          (it k1 = .done k2 ∨ ∃ c, it k1 = .item c k2 ∧ N < byteLen w + c.utf8Size) ∧
          (fromCharsTruncate it k : Res ε _) = .ok (s, k2) ∧ Holds s w) ∨
       (it k1 = .panic ∧ (fromCharsTruncate it k : Res ε (ArrayString N × κ)) = .panic)) := by
  obtain ⟨w, k1, hy, hb, h⟩ := pull_chars it N k
  have hl := length_le_byteLen w
  refine ⟨w, k1, hy, hb, by omega, ?_⟩
  rcases h with ⟨k2, e⟩ | e | ⟨c, k2, e, ho⟩
  · obtain ⟨s, e2, hs⟩ := fromCharsTruncate_done (N := N) (ε := ε) ValidCapacity.le hy e hb
    exact .inl ⟨s, k2, .inl e, e2, hs⟩
  · exact .inr ⟨e, fromCharsTruncate_panic ValidCapacity.le hy e hb⟩
  · obtain ⟨s, e2, hs⟩ := fromCharsTruncate_over (N := N) (ε := ε) ValidCapacity.le hy e hb ho
    exact .inl ⟨s, k2, .inr ⟨c, e, ho⟩, e2, hs⟩

/-- C42: the same for `try_from_chars`, which fails when it meets a character that does not fit. -/
theorem C42_try_chars (it : Iter κ Char) (k : κ) :
    ∃ w k1, Yields it k w k1 ∧ byteLen w ≤ N ∧ w.length ≤ N ∧
      ((∃ (s : ArrayString N) (k2 : κ), it k1 = .done k2 ∧ tryFromChars it k = .ok (s, k2) ∧ Holds s w) ∨
       (∃ c k2, it k1 = .item c k2 ∧ N < byteLen w + c.utf8Size ∧
          (tryFromChars it k : Res _ (ArrayString N × κ)) = .err {}) ∨
       (it k1 = .panic ∧ (tryFromChars it k : Res _ (ArrayString N × κ)) = .panic)) := by
  obtain ⟨w, k1, hy, hb, h⟩ := pull_chars it N k
  have hl := length_le_byteLen w
  refine ⟨w, k1, hy, hb, by omega, ?_⟩
  rcases h with ⟨k2, e⟩ | e | ⟨c, k2, e, ho⟩
  · obtain ⟨s, e2, hs⟩ := tryFromChars_done (N := N) ValidCapacity.le hy e hb
    exact .inl ⟨s, k2, e, e2, hs⟩
  · exact .inr (.inr ⟨e, tryFromChars_panic ValidCapacity.le hy e hb⟩)
  · exact .inr (.inl ⟨c, k2, e, ho, tryFromChars_over ValidCapacity.le hy e hb ho⟩)

/-- C42 and C11 and C48 for an arbitrary iterator of strings, whose items may even answer `as_ref`
differently the second time (`p.2`): it stops after finitely many pieces, with the pieces that fit and
the fitting part of (the second answer of) the next one, or panics with the iterator, or never stops
because the pieces go on for ever without filling the string. -/
theorem C42_strs (it : Iter κ AsRefTwice) (ht : TextItems it) (k : κ) :
    (∃ (ps : List (List Char × List Char)) (k1 : κ),
      Yields it k (ps.map fun p => ⟨utf8 p.1, utf8 p.2⟩) k1 ∧ byteLen (ps.map Prod.fst).flatten ≤ N ∧
      ((∃ (s : ArrayString N) (k2 : κ), it k1 = .done k2 ∧ (fromIteratorTruncate it k : Res ε _) = .ok (s, k2) ∧
          Holds s (ps.map Prod.fst).flatten) ∨
       (∃ (s : ArrayString N) (k2 : κ) (w w' pre : List Char), it k1 = .item ⟨utf8 w, utf8 w'⟩ k2 ∧
          N < byteLen (ps.map Prod.fst).flatten + byteLen w ∧
          (fromIteratorTruncate it k : Res ε _) = .ok (s, k2) ∧
          Holds s ((ps.map Prod.fst).flatten ++ pre) ∧ LongestFit (N - byteLen (ps.map Prod.fst).flatten) w' pre) ∨
       (it k1 = .panic ∧ (fromIteratorTruncate it k : Res ε (ArrayString N × κ)) = .panic))) ∨
    (Endless it N k ∧ (fromIteratorTruncate it k : Res ε (ArrayString N × κ)) = .diverge) := by
  rcases stops_or_endless ht N k with ⟨ps, k1, hy, hb, h⟩ | h
  · left
    refine ⟨ps, k1, hy, hb, ?_⟩
    have hy' : Yields it k ((ps.map fun p => (p.1, utf8 p.2)).map fun p => ⟨utf8 p.1, p.2⟩) k1 := by
      simpa [List.map_map, Function.comp_def] using hy
    have hf : ((ps.map fun p => (p.1, utf8 p.2)).map Prod.fst) = ps.map Prod.fst := by
      simp [List.map_map, Function.comp_def]
    have hb' := hb; rw [← hf] at hb'
    rcases h with ⟨k2, e⟩ | e | ⟨w, w', k2, e, ho⟩
    · obtain ⟨s, e2, hs⟩ := fromIteratorTruncate_done (N := N) (ε := ε) ValidCapacity.le hy' e hb'
      rw [hf] at hs
      exact .inl ⟨s, k2, e, e2, hs⟩
    · exact .inr (.inr ⟨e, fromIteratorTruncate_panic ValidCapacity.le hy' e hb'⟩)
    · have ho' : N < byteLen (ps.map Prod.fst).flatten + byteLen w := by omega
      obtain ⟨s, e2, hs⟩ := fromIteratorTruncate_over (N := N) (ε := ε) ValidCapacity.le hy' e hb' (by rw [hf]; exact ho')
      rw [hf] at hs
      exact .inr (.inl ⟨s, k2, w, w', _, e, ho', e2, hs, longestFit_takeFit _ _⟩)
  · exact .inr ⟨h, fromIteratorTruncate_endless ValidCapacity.le h⟩

/-- C42: when no piece is empty it always stops. -/
theorem C42_strs_nonempty (it : Iter κ AsRefTwice) (ht : TextItems it)
    (hne : ∀ k w w' k', it k = .item ⟨utf8 w, utf8 w'⟩ k' → w ≠ []) (k : κ) :
    (fromIteratorTruncate it k : Res ε (ArrayString N × κ)) ≠ .diverge := by
  rcases C42_strs (N := N) (ε := ε) it ht k with ⟨ps, k1, -, -, h⟩ | ⟨h, -⟩
  · rcases h with ⟨s, k2, -, e, -⟩ | ⟨s, k2, w, w', pre, -, -, e, -⟩ | ⟨-, e⟩ <;> rw [e] <;> simp
  · exact (endless_nonempty hne h).elim

/-- C42: an endless supply of empty pieces makes it loop for ever. -/
theorem C42_strs_loops :
    (fromIteratorTruncate (fun (_ : Unit) => .item (honest []) ()) () : Res ε (ArrayString N × Unit)) = .diverge := by
  apply fromIteratorTruncate_endless ValidCapacity.le
  intro m
  refine ⟨List.replicate m ([], []), (), by simp, ?_, ?_⟩
  · induction m with
    | zero => exact .nil _
    | succ m ih => rw [List.replicate_succ]; exact .cons rfl ih
  · induction m with
    | zero => simp
    | succ m ih => simp [List.replicate_succ]

example : TextItems (fun (_ : Unit) => .item (honest ['é']) ()) :=
  fun _ _ _ h => ⟨['é'], ['é'], by simp only [Step.item.injEq] at h; exact h.1.symm⟩
example : ∀ (k : Unit) w w' k', (fun (_ : Unit) => Step.item (honest ['é']) ()) k = .item ⟨utf8 w, utf8 w'⟩ k' →
    w ≠ [] := by
  intro k w w' k' h
  simp only [Step.item.injEq, honest, AsRefTwice.mk.injEq] at h
  rintro rfl
  exact absurd h.1.1 (by decide)

/-- C48: whatever an item answers the second time, if the loop ends without a panic the result is a
valid string. -/
theorem C48_adversarial_as_ref (it : Iter κ AsRefTwice) (ht : TextItems it) (k : κ) :
    (∃ (s : ArrayString N) (k' : κ) (cs : List Char), (fromIteratorTruncate it k : Res ε _) = .ok (s, k') ∧ Holds s cs) ∨
    (fromIteratorTruncate it k : Res ε (ArrayString N × κ)) = .panic ∨
    (fromIteratorTruncate it k : Res ε (ArrayString N × κ)) = .diverge := by
  rcases C42_strs (N := N) (ε := ε) it ht k with ⟨ps, k1, -, -, h⟩ | ⟨-, h⟩
  · rcases h with ⟨s, k2, -, e, h⟩ | ⟨s, k2, w, w', pre, -, -, e, h, -⟩ | ⟨-, e⟩
    · exact .inl ⟨s, k2, _, e, h⟩
    · exact .inl ⟨s, k2, _, e, h⟩
    · exact .inr (.inl e)
  · exact .inr (.inr h)

/-- C48: for a finite sequence of adversarial items it always ends well. -/
theorem C48_finite (ps : List (List Char × List Char)) :
    ∃ (s : ArrayString N) (k' : List AsRefTwice) (cs : List Char),
      (fromIteratorTruncate listIter (ps.map fun p => ⟨utf8 p.1, utf8 p.2⟩) : Res ε _) = .ok (s, k') ∧ Holds s cs := by
  have hp : ∀ k : List AsRefTwice, (listIter k) ≠ .panic := by intro k; cases k <;> simp [listIter]
  -- run the loop on the list: it can only consume
  have key : ∀ (ps : List (List Char × List Char)) (out : ArrayString N) (cs : List Char), Holds out cs →
      ∃ (s : ArrayString N) (k' : List AsRefTwice) (cs' : List Char),
        (fromIteratorTruncateLoop listIter (ps.map fun p => (⟨utf8 p.1, utf8 p.2⟩ : AsRefTwice)) out : Res ε _) = .ok (s, k') ∧
          Holds s cs' := by
    intro ps
    induction ps with
    | nil => intro out cs h; exact ⟨out, [], cs, by rw [fromIteratorTruncateLoop]; rfl, h⟩
    | cons p ps ih =>
      intro out cs h
      rw [fromIteratorTruncateLoop]
      simp only [List.map_cons, listIter]
      by_cases hf : byteLen cs + byteLen p.1 ≤ N
      · obtain ⟨s', e, hs'⟩ := tryPushStr_ok ValidCapacity.le h hf
        simp only [e]
        exact ih s' _ hs'
      · rw [tryPushStr_err ValidCapacity.le h (by omega)]
        obtain ⟨s', e, hs'⟩ := pushStrTruncate_ok (ε := ε) ValidCapacity.le p.2 h
        simp only [e]
        exact ⟨s', _, _, rfl, hs'⟩
  exact key ps new [] holds_new

end Verif
