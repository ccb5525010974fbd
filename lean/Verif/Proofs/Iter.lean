import Verif.Proofs.Ops
import Verif.Spec.Endless

/-! # Loops over iterators -/

namespace Verif
open Spec ArrayString

variable {κ α : Type} {N : Nat} {ε : Type} {cs : List Char}

theorem yields_listIter (a b : List α) : Yields listIter (a ++ b) a b := by
  induction a with
  | nil => exact .nil b
  | cons x a ih => exact .cons rfl ih

theorem Yields.append {it : Iter κ α} {k k' k'' : κ} {a b : List α} (h : Yields it k a k')
    (h' : Yields it k' b k'') : Yields it k (a ++ b) k'' := by
  induction h with
  | nil => exact h'
  | cons e _ ih => exact .cons e (ih h')

/-- Pulling characters from any iterator, within a budget of `n` bytes: after finitely many items it
ends, panics, or produces a character that exceeds the budget. -/
theorem pull_chars (it : Iter κ Char) (n : Nat) : ∀ k, ∃ w k1, Yields it k w k1 ∧ byteLen w ≤ n ∧
    ((∃ k2, it k1 = .done k2) ∨ it k1 = .panic ∨ ∃ c k2, it k1 = .item c k2 ∧ n < byteLen w + c.utf8Size) := by
  induction n using Nat.strongRecOn with
  | ind n ih =>
    intro k
    cases h : it k with
    | done k2 => exact ⟨[], k, .nil k, by simp, .inl ⟨k2, h⟩⟩
    | panic => exact ⟨[], k, .nil k, by simp, .inr (.inl h)⟩
    | item c k2 =>
      have := utf8Size_pos c
      by_cases hc : c.utf8Size ≤ n
      · obtain ⟨w, k1, hy, hw, hh⟩ := ih (n - c.utf8Size) (by omega) k2
        refine ⟨c :: w, k1, .cons h hy, by simp; omega, ?_⟩
        rcases hh with hh | hh | ⟨d, k3, hd, hlt⟩
        · exact .inl hh
        · exact .inr (.inl hh)
        · exact .inr (.inr ⟨d, k3, hd, by simp; omega⟩)
      · exact ⟨[], k, .nil k, by simp, .inr (.inr ⟨c, k2, h, by simp; omega⟩)⟩

theorem length_le_byteLen (w : List Char) : w.length ≤ byteLen w := by
  induction w with
  | nil => simp
  | cons c w ih => have := utf8Size_pos c; simp; omega

/-! ## Characters -/

theorem tryFromCharsLoop_run (hN : N ≤ 255) {it : Iter κ Char} {k k1 : κ} {w : List Char}
    (hy : Yields it k w k1) : ∀ {out : ArrayString N} {cs : List Char}, Holds out cs →
    byteLen cs + byteLen w ≤ N →
    ∃ out', Holds out' (cs ++ w) ∧ tryFromCharsLoop it k out = tryFromCharsLoop it k1 out' := by
  induction hy with
  | nil => intro out cs hs _; exact ⟨out, by simpa using hs, rfl⟩
  | @cons k k' k'' c l e _ ih =>
    intro out cs hs hf
    simp at hf
    obtain ⟨o1, e1, h1⟩ := tryPush_ok hN (c := c) hs (by omega)
    obtain ⟨o2, h2, e2⟩ := ih h1 (by simp; omega)
    refine ⟨o2, by simpa using h2, ?_⟩
    rw [tryFromCharsLoop, e]
    simp only [e1]
    exact e2

theorem fromCharsTruncateLoop_run (hN : N ≤ 255) {it : Iter κ Char} {k k1 : κ} {w : List Char}
    (hy : Yields it k w k1) : ∀ {out : ArrayString N} {cs : List Char}, Holds out cs →
    byteLen cs + byteLen w ≤ N →
    ∃ out', Holds out' (cs ++ w) ∧ (fromCharsTruncateLoop it k out : Res ε _) = fromCharsTruncateLoop it k1 out' := by
  induction hy with
  | nil => intro out cs hs _; exact ⟨out, by simpa using hs, rfl⟩
  | @cons k k' k'' c l e _ ih =>
    intro out cs hs hf
    simp at hf
    obtain ⟨o1, e1, h1⟩ := tryPush_ok hN (c := c) hs (by omega)
    obtain ⟨o2, h2, e2⟩ := ih h1 (by simp; omega)
    refine ⟨o2, by simpa using h2, ?_⟩
    rw [fromCharsTruncateLoop, e]
    simp only [e1]
    exact e2

section chars
variable {it : Iter κ Char} {k k1 k2 : κ} {w : List Char} {c : Char}

theorem tryFromChars_done (hN : N ≤ 255) (hy : Yields it k w k1) (hd : it k1 = .done k2)
    (hf : byteLen w ≤ N) :
    ∃ s : ArrayString N, tryFromChars it k = .ok (s, k2) ∧ Holds s w := by
  obtain ⟨o, ho, e⟩ := tryFromCharsLoop_run hN hy (holds_new (N := N)) (by simpa using hf)
  refine ⟨o, ?_, by simpa using ho⟩
  unfold tryFromChars
  rw [e, tryFromCharsLoop, hd]

theorem tryFromChars_over (hN : N ≤ 255) (hy : Yields it k w k1) (hd : it k1 = .item c k2)
    (hf : byteLen w ≤ N) (ho : N < byteLen w + c.utf8Size) :
    (tryFromChars it k : Res _ (ArrayString N × κ)) = .err {} := by
  obtain ⟨o, ho', e⟩ := tryFromCharsLoop_run hN hy (holds_new (N := N)) (by simpa using hf)
  unfold tryFromChars
  rw [e, tryFromCharsLoop, hd]
  simp only [tryPush_err hN (c := c) ho' (by simpa using ho)]

theorem tryFromChars_panic (hN : N ≤ 255) (hy : Yields it k w k1) (hd : it k1 = .panic)
    (hf : byteLen w ≤ N) :
    (tryFromChars it k : Res _ (ArrayString N × κ)) = .panic := by
  obtain ⟨o, ho', e⟩ := tryFromCharsLoop_run hN hy (holds_new (N := N)) (by simpa using hf)
  unfold tryFromChars
  rw [e, tryFromCharsLoop, hd]

theorem fromCharsTruncate_done (hN : N ≤ 255) (hy : Yields it k w k1) (hd : it k1 = .done k2)
    (hf : byteLen w ≤ N) :
    ∃ s : ArrayString N, (fromCharsTruncate it k : Res ε _) = .ok (s, k2) ∧ Holds s w := by
  obtain ⟨o, ho, e⟩ := fromCharsTruncateLoop_run (ε := ε) hN hy (holds_new (N := N)) (by simpa using hf)
  refine ⟨o, ?_, by simpa using ho⟩
  unfold fromCharsTruncate
  rw [e, fromCharsTruncateLoop, hd]

theorem fromCharsTruncate_over (hN : N ≤ 255) (hy : Yields it k w k1) (hd : it k1 = .item c k2)
    (hf : byteLen w ≤ N) (ho : N < byteLen w + c.utf8Size) :
    ∃ s : ArrayString N, (fromCharsTruncate it k : Res ε _) = .ok (s, k2) ∧ Holds s w := by
  obtain ⟨o, ho', e⟩ := fromCharsTruncateLoop_run (ε := ε) hN hy (holds_new (N := N)) (by simpa using hf)
  refine ⟨o, ?_, by simpa using ho'⟩
  unfold fromCharsTruncate
  rw [e, fromCharsTruncateLoop, hd]
  simp only [tryPush_err hN (c := c) ho' (by simpa using ho)]

theorem fromCharsTruncate_panic (hN : N ≤ 255) (hy : Yields it k w k1) (hd : it k1 = .panic)
    (hf : byteLen w ≤ N) :
    (fromCharsTruncate it k : Res ε (ArrayString N × κ)) = .panic := by
  obtain ⟨o, ho, e⟩ := fromCharsTruncateLoop_run (ε := ε) hN hy (holds_new (N := N)) (by simpa using hf)
  unfold fromCharsTruncate
  rw [e, fromCharsTruncateLoop, hd]

end chars

/-- Splitting a finite text at the first character that does not fit. -/
theorem takeFit_split (n : Nat) (w : List Char) :
    takeFit n w = w ∧ byteLen w ≤ n ∨
    ∃ c post, w = takeFit n w ++ c :: post ∧ n < byteLen (takeFit n w) + c.utf8Size := by
  obtain ⟨post, h1, h2, h3⟩ := longestFit_takeFit n w
  cases post with
  | nil =>
    left
    simp at h1
    exact ⟨h1.symm, by rw [h1]; exact h2⟩
  | cons c post => exact .inr ⟨c, post, h1, h3 c post rfl⟩

theorem fromCharsTruncate_list (hN : N ≤ 255) (w : List Char) :
    ∃ (s : ArrayString N) (k : List Char), (fromCharsTruncate listIter w : Res ε _) = .ok (s, k) ∧
      Holds s (takeFit N w) ∧ (k = [] ∧ byteLen w ≤ N ∨ ∃ c, w = takeFit N w ++ c :: k) := by
  rcases takeFit_split N w with ⟨h1, h2⟩ | ⟨c, post, h1, h2⟩
  · obtain ⟨s, e, hs⟩ := fromCharsTruncate_done (ε := ε) hN (yields_listIter w []) rfl h2
    exact ⟨s, [], by simpa using e, by rw [h1]; exact hs, .inl ⟨rfl, h2⟩⟩
  · obtain ⟨s, e, hs⟩ := fromCharsTruncate_over (ε := ε) hN (yields_listIter (takeFit N w) (c :: post)) rfl
      (byteLen_takeFit_le N w) h2
    rw [← h1] at e
    exact ⟨s, post, e, hs, .inr ⟨c, h1⟩⟩

theorem tryFromChars_list_ok (hN : N ≤ 255) {w : List Char} (h : byteLen w ≤ N) :
    ∃ (s : ArrayString N), tryFromChars listIter w = .ok (s, []) ∧ Holds s w := by
  obtain ⟨s, e, hs⟩ := tryFromChars_done hN (yields_listIter w []) rfl h
  exact ⟨s, by simpa using e, hs⟩

theorem tryFromChars_list_err (hN : N ≤ 255) {w : List Char} (h : N < byteLen w) :
    (tryFromChars listIter w : Res _ (ArrayString N × _)) = .err {} := by
  rcases takeFit_split N w with ⟨h1, h2⟩ | ⟨c, post, h1, h2⟩
  · omega
  · have := tryFromChars_over hN (yields_listIter (takeFit N w) (c :: post)) rfl
      (byteLen_takeFit_le N w) h2
    rwa [← h1] at this

/-! ## Pieces of text -/

theorem tryFromIteratorLoop_run (hN : N ≤ 255) {it : Iter κ Bytes} {k k1 : κ} {ws : List (List Char)} :
    Yields it k (ws.map utf8) k1 → ∀ {out : ArrayString N} {cs : List Char}, Holds out cs →
    byteLen cs + byteLen ws.flatten ≤ N →
    ∃ out', Holds out' (cs ++ ws.flatten) ∧ tryFromIteratorLoop it k out = tryFromIteratorLoop it k1 out' := by
  induction ws generalizing k with
  | nil => intro hy out cs hs _; cases hy; exact ⟨out, by simpa using hs, rfl⟩
  | cons w ws ih =>
    intro hy out cs hs hf
    cases hy with
    | cons e hy =>
    simp at hf
    obtain ⟨o1, e1, h1⟩ := tryPushStr_ok hN (w := w) hs (by omega)
    obtain ⟨o2, h2, e2⟩ := ih hy h1 (by simp; omega)
    refine ⟨o2, by simpa using h2, ?_⟩
    rw [tryFromIteratorLoop, e]
    simp only [e1]
    exact e2

theorem fromIteratorTruncateLoop_run (hN : N ≤ 255) {it : Iter κ AsRefTwice} {k k1 : κ}
    {ws : List (List Char × Bytes)} :
    Yields it k (ws.map fun p => ⟨utf8 p.1, p.2⟩) k1 → ∀ {out : ArrayString N} {cs : List Char}, Holds out cs →
    byteLen cs + byteLen (ws.map Prod.fst).flatten ≤ N →
    ∃ out', Holds out' (cs ++ (ws.map Prod.fst).flatten) ∧
      (fromIteratorTruncateLoop it k out : Res ε _) = fromIteratorTruncateLoop it k1 out' := by
  induction ws generalizing k with
  | nil => intro hy out cs hs _; cases hy; exact ⟨out, by simpa using hs, rfl⟩
  | cons w ws ih =>
    intro hy out cs hs hf
    cases hy with
    | cons e hy =>
    simp at hf
    obtain ⟨o1, e1, h1⟩ := tryPushStr_ok hN (w := w.1) hs (by omega)
    obtain ⟨o2, h2, e2⟩ := ih hy h1 (by simp; omega)
    refine ⟨o2, by simpa using h2, ?_⟩
    rw [fromIteratorTruncateLoop, e]
    simp only [e1]
    exact e2

section strs
variable {k k1 k2 : κ} {ws : List (List Char)} {w : List Char}

theorem tryFromIterator_done (hN : N ≤ 255) {it : Iter κ Bytes} (hy : Yields it k (ws.map utf8) k1)
    (hd : it k1 = .done k2) (hf : byteLen ws.flatten ≤ N) :
    ∃ s : ArrayString N, tryFromIterator it k = .ok (s, k2) ∧ Holds s ws.flatten := by
  obtain ⟨o, ho, e⟩ := tryFromIteratorLoop_run hN hy (holds_new (N := N)) (by simpa using hf)
  refine ⟨o, ?_, by simpa using ho⟩
  unfold tryFromIterator
  rw [e, tryFromIteratorLoop, hd]

theorem tryFromIterator_over (hN : N ≤ 255) {it : Iter κ Bytes} (hy : Yields it k (ws.map utf8) k1)
    (hd : it k1 = .item (utf8 w) k2) (hf : byteLen ws.flatten ≤ N) (ho : N < byteLen ws.flatten + byteLen w) :
    (tryFromIterator it k : Res _ (ArrayString N × κ)) = .err {} := by
  obtain ⟨o, ho', e⟩ := tryFromIteratorLoop_run hN hy (holds_new (N := N)) (by simpa using hf)
  unfold tryFromIterator
  rw [e, tryFromIteratorLoop, hd]
  simp only [tryPushStr_err hN (w := w) ho' (by simpa using ho)]

theorem tryFromIterator_panic (hN : N ≤ 255) {it : Iter κ Bytes} (hy : Yields it k (ws.map utf8) k1)
    (hd : it k1 = .panic) (hf : byteLen ws.flatten ≤ N) :
    (tryFromIterator it k : Res _ (ArrayString N × κ)) = .panic := by
  obtain ⟨o, ho', e⟩ := tryFromIteratorLoop_run hN hy (holds_new (N := N)) (by simpa using hf)
  unfold tryFromIterator
  rw [e, tryFromIteratorLoop, hd]

variable {it : Iter κ AsRefTwice} {ps : List (List Char × Bytes)}

theorem fromIteratorTruncate_done (hN : N ≤ 255) (hy : Yields it k (ps.map fun p => ⟨utf8 p.1, p.2⟩) k1)
    (hd : it k1 = .done k2) (hf : byteLen (ps.map Prod.fst).flatten ≤ N) :
    ∃ s : ArrayString N, (fromIteratorTruncate it k : Res ε _) = .ok (s, k2) ∧
      Holds s (ps.map Prod.fst).flatten := by
  obtain ⟨o, ho, e⟩ := fromIteratorTruncateLoop_run (ε := ε) hN hy (holds_new (N := N)) (by simpa using hf)
  refine ⟨o, ?_, by simpa using ho⟩
  unfold fromIteratorTruncate
  rw [e, fromIteratorTruncateLoop, hd]

theorem fromIteratorTruncate_panic (hN : N ≤ 255) (hy : Yields it k (ps.map fun p => ⟨utf8 p.1, p.2⟩) k1)
    (hd : it k1 = .panic) (hf : byteLen (ps.map Prod.fst).flatten ≤ N) :
    (fromIteratorTruncate it k : Res ε (ArrayString N × κ)) = .panic := by
  obtain ⟨o, ho, e⟩ := fromIteratorTruncateLoop_run (ε := ε) hN hy (holds_new (N := N)) (by simpa using hf)
  unfold fromIteratorTruncate
  rw [e, fromIteratorTruncateLoop, hd]

/-- The first piece that does not fit; the second answer `w'` of its `as_ref` may differ from the
first answer `w`. -/
theorem fromIteratorTruncate_over (hN : N ≤ 255) {w' : List Char}
    (hy : Yields it k (ps.map fun p => ⟨utf8 p.1, p.2⟩) k1)
    (hd : it k1 = .item ⟨utf8 w, utf8 w'⟩ k2) (hf : byteLen (ps.map Prod.fst).flatten ≤ N)
    (ho : N < byteLen (ps.map Prod.fst).flatten + byteLen w) :
    ∃ s : ArrayString N, (fromIteratorTruncate it k : Res ε _) = .ok (s, k2) ∧
      Holds s ((ps.map Prod.fst).flatten ++ takeFit (N - byteLen (ps.map Prod.fst).flatten) w') := by
  obtain ⟨o, ho', e⟩ := fromIteratorTruncateLoop_run (ε := ε) hN hy (holds_new (N := N)) (by simpa using hf)
  simp only [List.nil_append] at ho'
  obtain ⟨s, e2, hs⟩ := pushStrTruncate_ok (ε := ε) hN w' ho'
  refine ⟨s, ?_, hs⟩
  unfold fromIteratorTruncate
  rw [e, fromIteratorTruncateLoop, hd]
  simp only [tryPushStr_err hN (w := w) ho' ho, e2]

end strs

/-- The pieces before the first one that does not fit. -/
theorem pieces_split (n : Nat) (ws : List (List Char)) :
    byteLen ws.flatten ≤ n ∨
    ∃ a w b, ws = a ++ w :: b ∧ byteLen a.flatten ≤ n ∧ n < byteLen a.flatten + byteLen w := by
  induction ws generalizing n with
  | nil => left; simp
  | cons w ws ih =>
    by_cases hw : byteLen w ≤ n
    · rcases ih (n - byteLen w) with h | ⟨a, v, b, rfl, h1, h2⟩
      · left; simp; omega
      · right; exact ⟨w :: a, v, b, rfl, by simp; omega, by simp; omega⟩
    · right; exact ⟨[], w, ws, rfl, by simp, by simp; omega⟩

theorem tryFromIterator_list_ok (hN : N ≤ 255) {ws : List (List Char)} (h : byteLen ws.flatten ≤ N) :
    ∃ (s : ArrayString N), tryFromIterator listIter (ws.map utf8) = .ok (s, []) ∧ Holds s ws.flatten := by
  obtain ⟨s, e, hs⟩ := tryFromIterator_done hN (yields_listIter (ws.map utf8) []) rfl h
  exact ⟨s, by simpa using e, hs⟩

theorem tryFromIterator_list_err (hN : N ≤ 255) {ws : List (List Char)} (h : N < byteLen ws.flatten) :
    (tryFromIterator listIter (ws.map utf8) : Res _ (ArrayString N × _)) = .err {} := by
  rcases pieces_split N ws with h1 | ⟨a, w, b, rfl, h1, h2⟩
  · omega
  · have := tryFromIterator_over hN (yields_listIter (a.map utf8) ((w :: b).map utf8)) rfl h1 h2
    rwa [← List.map_append] at this

theorem fromIteratorTruncate_list (hN : N ≤ 255) (ws : List (List Char)) :
    ∃ (s : ArrayString N) (k : List AsRefTwice),
      (fromIteratorTruncate listIter (ws.map honest) : Res ε _) = .ok (s, k) ∧
      Holds s (takeFit N ws.flatten) ∧
      (k = [] ∧ byteLen ws.flatten ≤ N ∨
        ∃ a w b, ws = a ++ w :: b ∧ byteLen a.flatten ≤ N ∧ N < byteLen a.flatten + byteLen w ∧
          k = b.map honest) := by
  have hm : ∀ a : List (List Char), a.map honest =
      (a.map fun w => (w, utf8 w)).map fun p => (⟨utf8 p.1, p.2⟩ : AsRefTwice) := by
    intro a; simp [honest]
  have hf : ∀ a : List (List Char), (a.map fun w => (w, utf8 w)).map Prod.fst = a := by
    intro a; simp [Function.comp_def]
  rcases pieces_split N ws with h1 | ⟨a, w, b, rfl, h1, h2⟩
  · obtain ⟨s, e, hs⟩ := fromIteratorTruncate_done (N := N) (ε := ε) hN (ps := ws.map fun w => (w, utf8 w))
      (it := listIter) (k1 := []) (k := ws.map honest ++ [])
      (by rw [← hm]; exact yields_listIter (ws.map honest) []) rfl (by rw [hf]; exact h1)
    rw [hf] at hs
    refine ⟨s, [], by simpa using e, by rwa [takeFit_of_le h1], .inl ⟨rfl, h1⟩⟩
  · obtain ⟨s, e, hs⟩ := fromIteratorTruncate_over (N := N) (ε := ε) hN (w := w) (w' := w)
      (ps := a.map fun w => (w, utf8 w)) (k2 := b.map honest)
      (it := listIter) (k1 := (w :: b).map honest) (k := a.map honest ++ (w :: b).map honest)
      (by rw [← hm]; exact yields_listIter (a.map honest) ((w :: b).map honest)) rfl (by rw [hf]; exact h1)
      (by rw [hf]; exact h2)
    rw [hf] at hs
    refine ⟨s, b.map honest, by simpa using e, ?_, .inr ⟨a, w, b, rfl, h1, h2, rfl⟩⟩
    rw [List.flatten_append, takeFit_append, if_pos h1, List.flatten_cons, takeFit_append, if_neg (by omega)]
    exact hs

/-! ## `extend` is `push_str_truncate` of the collected text -/

theorem takeFit_extend {N : Nat} (cs w : List Char) (h : byteLen cs ≤ N) :
    takeFit (N - byteLen cs) (takeFit N w) = takeFit (N - byteLen cs) w :=
  takeFit_takeFit (by omega) w

end Verif
