import Verif.Proofs.Utf8
import Verif.Model.Fmt
import Verif.Spec.Order

/-! # Byte order of UTF-8 is code point order -/

namespace Verif
open Spec

theorem cmp_self_append (a x y : Bytes) : Str.cmp (a ++ x) (a ++ y) = Str.cmp x y := by
  induction a with
  | nil => rfl
  | cons b a ih => simp [Str.cmp, ih]

theorem cmp_encode_lt {c d : Char} (h : c.toNat < d.toNat) (x y : Bytes) :
    Str.cmp (String.utf8EncodeChar c ++ x) (String.utf8EncodeChar d ++ y) = .lt := by
  have hc := toNat_range c
  have hd := toNat_range d
  unfold String.utf8EncodeChar
  simp only [show c.val.toNat = c.toNat from rfl, show d.val.toNat = d.toNat from rfl]
  generalize c.toNat = v at *
  generalize d.toNat = u at *
  by_cases c1 : v ≤ 127
  · rw [if_pos c1]
    (repeat' split) <;> simp only [List.cons_append, List.nil_append, Str.cmp, UInt8.toNat_ofNat'] <;>
      rw [if_pos (by omega)]
  rw [if_neg c1]
  rw [if_neg (show ¬ u ≤ 127 by omega)]
  by_cases c2 : v ≤ 2047
  · rw [if_pos c2]
    (repeat' split) <;> simp only [List.cons_append, List.nil_append, Str.cmp, UInt8.toNat_ofNat'] <;>
      (repeat' split) <;> first | rfl | omega
  rw [if_neg c2]
  rw [if_neg (show ¬ u ≤ 2047 by omega)]
  by_cases c3 : v ≤ 65535
  · rw [if_pos c3]
    (repeat' split) <;> simp only [List.cons_append, List.nil_append, Str.cmp, UInt8.toNat_ofNat'] <;>
      (repeat' split) <;> first | rfl | omega
  rw [if_neg c3]
  rw [if_neg (show ¬ u ≤ 65535 by omega)]
  simp only [List.cons_append, List.nil_append, Str.cmp, UInt8.toNat_ofNat']
  (repeat' split) <;> first | rfl | omega

theorem cmp_swap (a b : Bytes) : Str.cmp b a = (Str.cmp a b).swap := by
  induction a generalizing b with
  | nil => cases b <;> rfl
  | cons x a ih =>
    cases b with
    | nil => rfl
    | cons y b =>
      simp only [Str.cmp]
      split
      · rw [if_neg (by omega)]; rfl
      · split
        · rfl
        · exact ih b

theorem cmp_utf8 (a b : List Char) : Str.cmp (utf8 a) (utf8 b) = cmpText a b := by
  induction a generalizing b with
  | nil =>
    cases b with
    | nil => rfl
    | cons d b =>
      simp only [utf8_nil, utf8_cons, cmpText]
      obtain ⟨x, t, h, _⟩ := encode_head d
      rw [h]; rfl
  | cons c a ih =>
    cases b with
    | nil =>
      simp only [utf8_nil, utf8_cons, cmpText]
      obtain ⟨x, t, h, _⟩ := encode_head c
      rw [h]; rfl
    | cons d b =>
      simp only [utf8_cons, cmpText]
      split
      · rename_i h; exact cmp_encode_lt h _ _
      · split
        · rename_i h; rw [cmp_swap, cmp_encode_lt h]; rfl
        · have : c = d := by
            rw [← Char.ofNat_toNat c, ← Char.ofNat_toNat d]; congr 1; omega
          subst this
          rw [cmp_self_append, ih]

/-! ## `cmpText` is a total order compatible with equality -/

theorem cmpText_eq {a b : List Char} : cmpText a b = .eq ↔ a = b := by
  induction a generalizing b with
  | nil => cases b <;> simp [cmpText]
  | cons c a ih =>
    cases b with
    | nil => simp [cmpText]
    | cons d b =>
      simp only [cmpText, List.cons.injEq]
      split
      · rename_i h; simp; rintro rfl; omega
      · split
        · rename_i h; simp; rintro rfl; omega
        · have : c = d := by
            rw [← Char.ofNat_toNat c, ← Char.ofNat_toNat d]; congr 1; omega
          simp [this, ih]

theorem cmpText_swap (a b : List Char) : cmpText b a = (cmpText a b).swap := by
  rw [← cmp_utf8, ← cmp_utf8, cmp_swap]

theorem cmpText_lt_trans {a b c : List Char} (h1 : cmpText a b = .lt) (h2 : cmpText b c = .lt) :
    cmpText a c = .lt := by
  induction a generalizing b c with
  | nil => cases b <;> cases c <;> simp_all [cmpText]
  | cons x a ih =>
    cases b with
    | nil => simp [cmpText] at h1
    | cons y b =>
      cases c with
      | nil => simp [cmpText] at h2
      | cons z c =>
        simp only [cmpText] at h1 h2 ⊢
        by_cases hxz : x.toNat < z.toNat
        · rw [if_pos hxz]
        · by_cases hxy : x.toNat < y.toNat
          · rw [if_neg (show ¬ y.toNat < z.toNat by omega), if_pos (by omega)] at h2
            simp at h2
          · rw [if_neg hxy] at h1
            by_cases hyx : y.toNat < x.toNat
            · rw [if_pos hyx] at h1; simp at h1
            · rw [if_neg hyx] at h1
              by_cases hyz : y.toNat < z.toNat
              · omega
              · rw [if_neg hyz] at h2
                by_cases hzy : z.toNat < y.toNat
                · rw [if_pos hzy] at h2; simp at h2
                · rw [if_neg hzy] at h2
                  rw [if_neg hxz, if_neg (by omega)]
                  exact ih h1 h2

/-- `0xff` never occurs in UTF-8. -/
theorem ff_not_mem (cs : List Char) : (0xff : UInt8) ∉ utf8 cs := by
  induction cs with
  | nil => simp
  | cons c cs ih =>
    rw [utf8_cons, List.mem_append]
    rintro (h | h)
    · have hr := toNat_range c
      unfold String.utf8EncodeChar at h
      simp only [show c.val.toNat = c.toNat from rfl] at h
      generalize c.toNat = v at *
      have conv : ∀ n : Nat, (0xff : UInt8) = UInt8.ofNat n → n % 256 = 255 := by
        intro n hn
        have := congrArg UInt8.toNat hn
        simp only [UInt8.toNat_ofNat'] at this
        exact this.symm
      split at h
      · simp only [List.mem_cons, List.not_mem_nil, or_false] at h
        have := conv _ h; omega
      split at h
      · simp only [List.mem_cons, List.not_mem_nil, or_false] at h
        rcases h with h | h <;> (have := conv _ h; omega)
      split at h
      · simp only [List.mem_cons, List.not_mem_nil, or_false] at h
        rcases h with h | h | h <;> (have := conv _ h; omega)
      · simp only [List.mem_cons, List.not_mem_nil, or_false] at h
        rcases h with h | h | h | h <;> (have := conv _ h; omega)
    · exact ih h

/-- The hashed byte sequence is a prefix-free code. -/
theorem terminated_injective {a b : List Char} {x y : Bytes}
    (h : utf8 a ++ 0xff :: x = utf8 b ++ 0xff :: y) : a = b ∧ x = y := by
  have key : ∀ (p q x y : Bytes), (0xff : UInt8) ∉ p → (0xff : UInt8) ∉ q → p ++ 0xff :: x = q ++ 0xff :: y →
      p = q ∧ x = y := by
    intro p
    induction p with
    | nil =>
      intro q x y _ hq h
      cases q with
      | nil => simpa using h
      | cons b q => simp at h hq; exact absurd h.1 hq.1
    | cons a p ih =>
      intro q x y hp hq h
      cases q with
      | nil => simp at h hp; exact absurd h.1.symm hp.1
      | cons b q =>
        simp only [List.cons_append, List.cons.injEq] at h
        simp only [List.mem_cons, not_or] at hp hq
        have := ih q x y hp.2 hq.2 h.2
        exact ⟨by rw [h.1, this.1], this.2⟩
  obtain ⟨h1, h2⟩ := key _ _ _ _ (ff_not_mem a) (ff_not_mem b) h
  exact ⟨utf8_injective h1, h2⟩

end Verif
