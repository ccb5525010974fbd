import Verif.Proofs.Traits
import Verif.Spec.Endless

/-! # Iterators that never stop the loop -/

namespace Verif
open Spec ArrayString Lean.Order

variable {N : Nat} {ε κ : Type}

theorem admissible_diverge {β γ δ : Type} (Inv : β → γ → Prop) :
    admissible (fun f : β → γ → Res ε δ => ∀ b c, Inv b c → f b c = .diverge) := by
  apply admissible_pi_apply (P := fun b (g : γ → Res ε δ) => ∀ c, Inv b c → g c = .diverge)
  intro b
  apply admissible_pi_apply (P := fun c (r : Res ε δ) => Inv b c → r = .diverge)
  intro c
  exact admissible_flatOrder (b := (Res.diverge : Res ε δ)) _ (fun _ => rfl)

theorem Endless.step {it : Iter κ AsRefTwice} {n : Nat} {k : κ} (h : Endless it n k) :
    ∃ w w' k', it k = .item ⟨utf8 w, utf8 w'⟩ k' ∧ byteLen w ≤ n ∧ Endless it (n - byteLen w) k' := by
  have key : ∀ m, ∃ w w' k', it k = .item ⟨utf8 w, utf8 w'⟩ k' ∧ byteLen w ≤ n ∧
      ∃ (ps : List (List Char × List Char)) (k1 : κ), ps.length = m ∧
        Yields it k' (ps.map fun p => ⟨utf8 p.1, utf8 p.2⟩) k1 ∧ byteLen w + byteLen (ps.map Prod.fst).flatten ≤ n := by
    intro m
    obtain ⟨ps, k1, hl, hy, hb⟩ := h (m + 1)
    cases ps with
    | nil => simp at hl
    | cons p ps =>
      simp only [List.map_cons] at hy
      cases hy with
      | cons e hy =>
        simp at hb
        exact ⟨p.1, p.2, _, e, by omega, ps, k1, by simpa using hl, hy, by simpa using hb⟩
  obtain ⟨w, w', k', e, hw, -⟩ := key 0
  refine ⟨w, w', k', e, hw, fun m => ?_⟩
  obtain ⟨v, v', k'', e', hv, ps, k1, hl, hy, hb⟩ := key m
  rw [e] at e'
  simp only [Step.item.injEq, AsRefTwice.mk.injEq] at e'
  obtain ⟨⟨h1, h2⟩, rfl⟩ := e'
  have := utf8_injective h1; subst this
  exact ⟨ps, k1, hl, hy, by omega⟩

theorem fromIteratorTruncate_endless (hN : N ≤ 255) {it : Iter κ AsRefTwice} {k : κ} (h : Endless it N k) :
    (fromIteratorTruncate it k : Res ε (ArrayString N × κ)) = .diverge := by
  have key : ∀ k (out : ArrayString N), (∃ cs, Holds out cs ∧ Endless it (N - byteLen cs) k) →
      (fromIteratorTruncateLoop it k out : Res ε (ArrayString N × κ)) = .diverge := by
    apply fromIteratorTruncateLoop.fixpoint_induct it (fun f => ∀ k out,
      (∃ cs, Holds out cs ∧ Endless it (N - byteLen cs) k) → f k out = .diverge)
    · exact admissible_diverge _
    · rintro f ih k out ⟨cs, hs, he⟩
      obtain ⟨w, w', k', e, hw, he'⟩ := he.step
      have hle := hs.le
      obtain ⟨s', e2, hs'⟩ := tryPushStr_ok hN hs (w := w) (by omega)
      simp only [e, e2]
      refine ih _ _ ⟨_, hs', ?_⟩
      simp only [byteLen_append]
      rw [← Nat.sub_sub]; exact he'
  exact key k new ⟨[], holds_new, by simpa using h⟩

/-- Where the loop of `from_iterator_truncate` can stop, with room `n` left for the pieces. -/
def StopsAt (it : Iter κ AsRefTwice) (n : Nat) (k : κ) : Prop :=
  (∃ k', it k = .done k') ∨ it k = .panic ∨
    ∃ w w' k', it k = .item ⟨utf8 w, utf8 w'⟩ k' ∧ n < byteLen w

theorem stops_or_endless {it : Iter κ AsRefTwice} (ht : TextItems it) (n : Nat) (k : κ) :
    (∃ (ps : List (List Char × List Char)) (k1 : κ),
      Yields it k (ps.map fun p => ⟨utf8 p.1, utf8 p.2⟩) k1 ∧ byteLen (ps.map Prod.fst).flatten ≤ n ∧
      StopsAt it (n - byteLen (ps.map Prod.fst).flatten) k1) ∨ Endless it n k := by
  apply Classical.or_iff_not_imp_left.2
  intro hno m
  induction m with
  | zero => exact ⟨[], k, rfl, .nil _, by simp⟩
  | succ m ih =>
    obtain ⟨ps, k1, hl, hy, hb⟩ := ih
    have hns : ¬ StopsAt it (n - byteLen (ps.map Prod.fst).flatten) k1 := fun h => hno ⟨ps, k1, hy, hb, h⟩
    cases e : it k1 with
    | done k' => exact (hns (.inl ⟨k', e⟩)).elim
    | panic => exact (hns (.inr (.inl e))).elim
    | item a k' =>
      obtain ⟨w, w', rfl⟩ := ht _ _ _ e
      have : byteLen w ≤ n - byteLen (ps.map Prod.fst).flatten := by
        apply Nat.le_of_not_lt; intro h; exact hns (.inr (.inr ⟨w, w', k', e, h⟩))
      refine ⟨ps ++ [(w, w')], k', by simp [hl], ?_, by simp; omega⟩
      rw [List.map_append]
      exact Yields.append hy (.cons e (.nil _))

theorem endless_nonempty {it : Iter κ AsRefTwice} {n : Nat} {k : κ}
    (hne : ∀ k w w' k', it k = .item ⟨utf8 w, utf8 w'⟩ k' → w ≠ []) : ¬ Endless it n k := by
  induction n using Nat.strongRecOn generalizing k with
  | ind n ih =>
    intro h
    obtain ⟨w, w', k', e, hw, he⟩ := h.step
    have hpos : 0 < byteLen w := by
      have := hne _ _ _ _ e
      have h0 : byteLen w ≠ 0 := fun h => this (byteLen_eq_zero.1 h)
      omega
    exact ih _ (by omega) he

/-! ## The same for `try_from_iterator` -/

theorem Endless'.step {it : Iter κ Bytes} {n : Nat} {k : κ} (h : Endless' it n k) :
    ∃ w k', it k = .item (utf8 w) k' ∧ byteLen w ≤ n ∧ Endless' it (n - byteLen w) k' := by
  have key : ∀ m, ∃ w k', it k = .item (utf8 w) k' ∧ byteLen w ≤ n ∧
      ∃ (ws : List (List Char)) (k1 : κ), ws.length = m ∧
        Yields it k' (ws.map utf8) k1 ∧ byteLen w + byteLen ws.flatten ≤ n := by
    intro m
    obtain ⟨ps, k1, hl, hy, hb⟩ := h (m + 1)
    cases ps with
    | nil => simp at hl
    | cons p ps =>
      simp only [List.map_cons] at hy
      cases hy with
      | cons e hy =>
        simp at hb
        exact ⟨p, _, e, by omega, ps, k1, by simpa using hl, hy, by simpa using hb⟩
  obtain ⟨w, k', e, hw, -⟩ := key 0
  refine ⟨w, k', e, hw, fun m => ?_⟩
  obtain ⟨v, k'', e', hv, ps, k1, hl, hy, hb⟩ := key m
  rw [e] at e'
  simp only [Step.item.injEq] at e'
  obtain ⟨h1, rfl⟩ := e'
  have := utf8_injective h1; subst this
  exact ⟨ps, k1, hl, hy, by omega⟩

theorem tryFromIterator_endless (hN : N ≤ 255) {it : Iter κ Bytes} {k : κ} (h : Endless' it N k) :
    (tryFromIterator it k : Res OutOfBounds (ArrayString N × κ)) = .diverge := by
  have key : ∀ k (out : ArrayString N), (∃ cs, Holds out cs ∧ Endless' it (N - byteLen cs) k) →
      (tryFromIteratorLoop it k out : Res OutOfBounds (ArrayString N × κ)) = .diverge := by
    apply tryFromIteratorLoop.fixpoint_induct it (fun f => ∀ k out,
      (∃ cs, Holds out cs ∧ Endless' it (N - byteLen cs) k) → f k out = .diverge)
    · exact admissible_diverge _
    · rintro f ih k out ⟨cs, hs, he⟩
      obtain ⟨w, k', e, hw, he'⟩ := he.step
      have hle := hs.le
      obtain ⟨s', e2, hs'⟩ := tryPushStr_ok hN hs (w := w) (by omega)
      simp only [e, e2]
      refine ih _ _ ⟨_, hs', ?_⟩
      simp only [byteLen_append]
      rw [← Nat.sub_sub]; exact he'
  exact key k new ⟨[], holds_new, by simpa using h⟩

theorem stops_or_endless' {it : Iter κ Bytes} (ht : TextItems' it) (n : Nat) (k : κ) :
    (∃ (ws : List (List Char)) (k1 : κ),
      Yields it k (ws.map utf8) k1 ∧ byteLen ws.flatten ≤ n ∧
      ((∃ k', it k1 = .done k') ∨ it k1 = .panic ∨
        ∃ w k', it k1 = .item (utf8 w) k' ∧ n < byteLen ws.flatten + byteLen w)) ∨ Endless' it n k := by
  apply Classical.or_iff_not_imp_left.2
  intro hno m
  induction m with
  | zero => exact ⟨[], k, rfl, .nil _, by simp⟩
  | succ m ih =>
    obtain ⟨ps, k1, hl, hy, hb⟩ := ih
    cases e : it k1 with
    | done k' => exact (hno ⟨ps, k1, hy, hb, .inl ⟨k', e⟩⟩).elim
    | panic => exact (hno ⟨ps, k1, hy, hb, .inr (.inl e)⟩).elim
    | item a k' =>
      obtain ⟨w, rfl⟩ := ht _ _ _ e
      have : byteLen ps.flatten + byteLen w ≤ n := by
        apply Nat.le_of_not_lt; intro h; exact hno ⟨ps, k1, hy, hb, .inr (.inr ⟨w, k', e, h⟩)⟩
      refine ⟨ps ++ [w], k', by simp [hl], ?_, by simp; omega⟩
      rw [List.map_append]
      exact Yields.append hy (.cons e (.nil _))

end Verif
