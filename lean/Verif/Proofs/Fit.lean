import Verif.Proofs.Utf8

/-! # Longest fitting prefixes and cuts -/

namespace Verif.Spec
open Verif

theorem takeFit_of_le {n : Nat} {w : List Char} (h : byteLen w ≤ n) : takeFit n w = w := by
  induction w generalizing n with
  | nil => rfl
  | cons c w ih =>
    simp at h
    rw [takeFit, if_pos (by omega), ih (by omega)]

theorem byteLen_takeFit_le (n : Nat) (w : List Char) : byteLen (takeFit n w) ≤ n := by
  induction w generalizing n with
  | nil => simp [takeFit]
  | cons c w ih =>
    rw [takeFit]
    split
    · have := ih (n - c.utf8Size); simp; omega
    · simp

theorem longestFit_takeFit (n : Nat) (w : List Char) : LongestFit n w (takeFit n w) := by
  suffices h : ∃ post, w = takeFit n w ++ post ∧
      ∀ c rest, post = c :: rest → n < byteLen (takeFit n w) + c.utf8Size by
    obtain ⟨post, h1, h2⟩ := h
    exact ⟨post, h1, byteLen_takeFit_le n w, h2⟩
  induction w generalizing n with
  | nil => exact ⟨[], rfl, by simp⟩
  | cons c w ih =>
    rw [takeFit]
    split
    · obtain ⟨post, h1, h2⟩ := ih (n - c.utf8Size)
      refine ⟨post, by simp [← h1], ?_⟩
      intro d rest hd
      have := h2 d rest hd
      simp; omega
    · refine ⟨c :: w, rfl, ?_⟩
      rintro d rest h
      cases h
      simp; omega

theorem LongestFit.unique {n : Nat} {w a b : List Char} (ha : LongestFit n w a)
    (hb : LongestFit n w b) : a = b := by
  obtain ⟨p, rfl, hl, hn⟩ := ha
  obtain ⟨q, h, hl', hn'⟩ := hb
  rcases List.append_eq_append_iff.1 h with ⟨x, rfl, rfl⟩ | ⟨x, rfl, rfl⟩
  · cases x with
    | nil => simp
    | cons c x => have := hn c (x ++ q) rfl; simp at hl'; omega
  · cases x with
    | nil => simp
    | cons c x => have := hn' c (x ++ p) rfl; simp at hl; omega

theorem longestFit_iff {n : Nat} {w a : List Char} : LongestFit n w a ↔ a = takeFit n w :=
  ⟨fun h => h.unique (longestFit_takeFit n w), fun h => h ▸ longestFit_takeFit n w⟩

/-- Every boundary up to `n` lies inside the longest fitting prefix. -/
theorem LongestFit.boundary_le {n i : Nat} {w a : List Char} (ha : LongestFit n w a)
    (hi : IsBoundary w i) (hn : i ≤ n) : i ≤ byteLen a := by
  obtain ⟨p, rfl, hl, h⟩ := ha
  obtain ⟨a', p', he, rfl⟩ := hi
  rcases List.append_eq_append_iff.1 he with ⟨x, rfl, rfl⟩ | ⟨x, rfl, rfl⟩
  · cases x with
    | nil => simp
    | cons c x => have := h c (x ++ p') rfl; simp at hn; omega
  · simp

theorem LongestFit.isBoundary {n : Nat} {w a : List Char} (ha : LongestFit n w a) :
    IsBoundary w (byteLen a) := by
  obtain ⟨p, rfl, _⟩ := ha
  exact ⟨a, p, rfl, rfl⟩

theorem LongestFit.lt_add_four {n : Nat} {w a : List Char} (ha : LongestFit n w a)
    (h : n < byteLen w) : n < byteLen a + 4 := by
  obtain ⟨p, rfl, hl, hp⟩ := ha
  cases p with
  | nil => simp at h; omega
  | cons c p => have := hp c p rfl; have := utf8Size_le_four c; omega

theorem takeFit_append (n : Nat) (a b : List Char) : takeFit n (a ++ b) =
    if byteLen a ≤ n then a ++ takeFit (n - byteLen a) b else takeFit n a := by
  induction a generalizing n with
  | nil => simp
  | cons c a ih =>
    simp only [List.cons_append, takeFit, byteLen_cons, ih]
    by_cases h : c.utf8Size ≤ n
    · simp only [h, if_true]
      by_cases h2 : byteLen a ≤ n - c.utf8Size
      · rw [if_pos h2, if_pos (by omega)]
        rw [show n - (c.utf8Size + byteLen a) = n - c.utf8Size - byteLen a by omega]
      · rw [if_neg h2, if_neg (by omega)]
    · rw [if_neg h]; split
      · omega
      · rfl

theorem takeFit_takeFit {m n : Nat} (h : m ≤ n) (w : List Char) :
    takeFit m (takeFit n w) = takeFit m w := by
  induction w generalizing m n with
  | nil => rfl
  | cons c w ih =>
    simp only [takeFit]
    by_cases h1 : c.utf8Size ≤ n
    · rw [if_pos h1]
      simp only [takeFit]
      by_cases h2 : c.utf8Size ≤ m
      · rw [if_pos h2, if_pos h2, ih (by omega)]
      · rw [if_neg h2, if_neg h2]
    · rw [if_neg h1, if_neg (by omega)]; rfl

theorem takeFit_eq_self_iff {n : Nat} {w : List Char} : takeFit n w = w ↔ byteLen w ≤ n := by
  constructor
  · intro h; rw [← h]; exact byteLen_takeFit_le n w
  · exact takeFit_of_le

theorem takeFit_prefix (n : Nat) (w : List Char) : ∃ post, w = takeFit n w ++ post := by
  obtain ⟨p, h, _⟩ := longestFit_takeFit n w
  exact ⟨p, h⟩

theorem takeFit_eq_nil_iff {n : Nat} {w : List Char} :
    takeFit n w = [] ↔ ∀ c rest, w = c :: rest → n < c.utf8Size := by
  cases w with
  | nil => simp [takeFit]
  | cons c w => simp [takeFit]

/-! ## `cutAt` -/

theorem cutAt_some {cs : List Char} {i : Nat} {a b : List Char} :
    cutAt cs i = some (a, b) ↔ CutAt cs i a b := by
  induction cs generalizing i a b with
  | nil =>
    cases i with
    | zero =>
      simp [cutAt, CutAt]
      rintro rfl rfl; simp
    | succ i =>
      simp [cutAt, CutAt]
      rintro rfl rfl; simp
  | cons c cs ih =>
    have hc := utf8Size_pos c
    cases i with
    | zero =>
      simp [cutAt]
      constructor
      · rintro ⟨rfl, rfl⟩; exact ⟨rfl, rfl⟩
      · rintro ⟨h1, h2⟩
        have : a = [] := byteLen_eq_zero.1 h2
        subst this; simp at h1; exact ⟨rfl, h1⟩
    | succ i =>
      simp only [cutAt]
      split
      · rename_i hle
        cases hcut : cutAt cs (i + 1 - c.utf8Size) with
        | none =>
          simp only [reduceCtorEq, false_iff]
          rintro ⟨h1, h2⟩
          cases a with
          | nil => simp at h2
          | cons d a =>
            simp at h1 h2
            obtain ⟨rfl, rfl⟩ := h1
            have := (ih (i := i + 1 - c.utf8Size) (a := a) (b := b)).2 ⟨rfl, by omega⟩
            simp [hcut] at this
        | some ab =>
          obtain ⟨a', b'⟩ := ab
          have h0 := ih.1 hcut
          simp only [Option.some.injEq, Prod.mk.injEq]
          constructor
          · rintro ⟨rfl, rfl⟩
            obtain ⟨rfl, h2⟩ := h0
            exact ⟨rfl, by simp; omega⟩
          · intro h
            refine CutAt.unique ?_ h
            obtain ⟨rfl, h2⟩ := h0
            exact ⟨rfl, by simp; omega⟩
      · rename_i hle
        simp only [reduceCtorEq, false_iff]
        rintro ⟨h1, h2⟩
        cases a with
        | nil => simp at h2
        | cons d a =>
          simp at h1 h2
          obtain ⟨rfl, rfl⟩ := h1
          omega

theorem cutAt_none {cs : List Char} {i : Nat} : cutAt cs i = none ↔ ¬ IsBoundary cs i := by
  constructor
  · rintro h ⟨a, b, hab⟩
    have := cutAt_some.2 hab
    simp [h] at this
  · intro h
    cases hc : cutAt cs i with
    | none => rfl
    | some ab => exact absurd ⟨ab.1, ab.2, cutAt_some.1 hc⟩ h

theorem isBoundary_iff_cutAt {cs : List Char} {i : Nat} : cutAt cs i ≠ none ↔ IsBoundary cs i := by
  rw [ne_eq, cutAt_none, Classical.not_not]

instance (cs : List Char) (i : Nat) : Decidable (IsBoundary cs i) :=
  decidable_of_iff _ isBoundary_iff_cutAt

end Verif.Spec
