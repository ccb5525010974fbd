import Verif.Model.Str

/-! # UTF-8 facts: the byte-level model of `core::str` against `Spec.utf8` -/

namespace Verif
open Spec

theorem toNat_range (c : Char) : c.toNat < 0xD800 ∨ (0xDFFF < c.toNat ∧ c.toNat < 0x110000) := by
  exact c.valid

theorem utf8Size_eq (c : Char) : c.utf8Size =
    if c.toNat ≤ 127 then 1 else if c.toNat ≤ 2047 then 2 else if c.toNat ≤ 65535 then 3 else 4 := by
  simp only [Char.utf8Size, Char.toNat, UInt32.le_iff_toNat_le]
  rfl

theorem utf8Size_pos (c : Char) : 0 < c.utf8Size := Char.utf8Size_pos c
theorem utf8Size_le_four (c : Char) : c.utf8Size ≤ 4 := Char.utf8Size_le_four c

@[simp] theorem length_encode (c : Char) : (String.utf8EncodeChar c).length = c.utf8Size :=
  String.length_utf8EncodeChar c

@[simp] theorem utf8_nil : utf8 [] = [] := rfl
@[simp] theorem utf8_cons (c : Char) (cs : List Char) :
    utf8 (c :: cs) = String.utf8EncodeChar c ++ utf8 cs := rfl
@[simp] theorem utf8_append (a b : List Char) : utf8 (a ++ b) = utf8 a ++ utf8 b := by
  simp [utf8]

@[simp] theorem byteLen_nil : byteLen [] = 0 := rfl
@[simp] theorem byteLen_cons (c : Char) (cs : List Char) :
    byteLen (c :: cs) = c.utf8Size + byteLen cs := rfl
@[simp] theorem byteLen_append (a b : List Char) : byteLen (a ++ b) = byteLen a + byteLen b := by
  simp [byteLen]

@[simp] theorem length_utf8 (cs : List Char) : (utf8 cs).length = byteLen cs := by
  induction cs with
  | nil => rfl
  | cons c cs ih => simp [ih]

theorem byteLen_eq_zero {cs : List Char} : byteLen cs = 0 ↔ cs = [] := by
  cases cs with
  | nil => simp
  | cons c cs => have := utf8Size_pos c; simp; omega

theorem utf8_eq_nil {cs : List Char} : utf8 cs = [] ↔ cs = [] := by
  rw [← byteLen_eq_zero, ← length_utf8, List.length_eq_zero_iff]

theorem isEmpty_utf8 (cs : List Char) : (utf8 cs).isEmpty = cs.isEmpty := by
  rw [Bool.eq_iff_iff]; simp [utf8_eq_nil]

/-- The decoder reads back exactly the character at the front. -/
theorem nextCodePoint_encode (c : Char) (rest : Bytes) :
    Str.nextCodePoint (String.utf8EncodeChar c ++ rest) = some (c.toNat, c.utf8Size) := by
  have hr := toNat_range c
  rw [utf8Size_eq]
  unfold String.utf8EncodeChar
  simp only [show c.val.toNat = c.toNat from rfl]
  generalize c.toNat = v at *
  split
  · rw [List.cons_append]; unfold Str.nextCodePoint
    simp only [UInt8.toNat_ofNat']
    rw [if_pos (by omega)]
    congr 2; omega
  split
  · simp only [List.cons_append, List.nil_append, Str.nextCodePoint, UInt8.toNat_ofNat']
    rw [if_neg (by omega), if_pos (by omega)]
    congr 2; omega
  split
  · simp only [List.cons_append, List.nil_append, Str.nextCodePoint, UInt8.toNat_ofNat']
    rw [if_neg (by omega), if_neg (by omega), if_pos (by omega)]
    congr 2; omega
  · simp only [List.cons_append, List.nil_append, Str.nextCodePoint, UInt8.toNat_ofNat']
    rw [if_neg (by omega), if_neg (by omega), if_neg (by omega)]
    congr 2; omega

theorem charIndicesAux_utf8 (cs : List Char) : ∀ (fuel off : Nat), byteLen cs ≤ fuel →
    Str.charIndicesAux fuel off (utf8 cs) = indexed off cs := by
  induction cs with
  | nil => intro fuel off _; cases fuel <;> rfl
  | cons c cs ih =>
    intro fuel off h
    have := utf8Size_pos c
    simp only [byteLen_cons] at h
    obtain ⟨f, rfl⟩ : ∃ f, fuel = f + 1 := ⟨fuel - 1, by omega⟩
    simp only [Str.charIndicesAux, utf8_cons, nextCodePoint_encode, indexed]
    rw [List.drop_left' (length_encode c), ih f _ (by omega)]
    congr 2
    exact Char.ofNat_toNat c

theorem charIndices_utf8 (cs : List Char) : Str.charIndices (utf8 cs) = indexed 0 cs := by
  unfold Str.charIndices
  exact charIndicesAux_utf8 cs _ _ (by simp)

theorem indexed_append (a b : List Char) : ∀ off,
    indexed off (a ++ b) = indexed off a ++ indexed (off + byteLen a) b := by
  induction a with
  | nil => intro off; simp [indexed]
  | cons c a ih => intro off; simp [indexed, ih, Nat.add_assoc]

theorem indexed_map_snd (cs : List Char) : ∀ off, (indexed off cs).map Prod.snd = cs := by
  induction cs with
  | nil => intro; rfl
  | cons c cs ih => intro off; simp [indexed, ih]

@[simp] theorem chars_utf8 (cs : List Char) : Str.chars (utf8 cs) = cs := by
  simp [Str.chars, charIndices_utf8, indexed_map_snd]

/-- UTF-8 is injective. -/
theorem utf8_injective {a b : List Char} (h : utf8 a = utf8 b) : a = b := by
  rw [← chars_utf8 a, h, chars_utf8]

theorem byteLen_eq_of_utf8 {a b : List Char} (h : utf8 a = utf8 b) : byteLen a = byteLen b := by
  rw [utf8_injective h]

/-! ## Boundaries -/

/-- The first byte of a character is not a continuation byte. -/
theorem encode_head (c : Char) : ∃ b tl, String.utf8EncodeChar c = b :: tl ∧
    (b.toNat < 128 ∨ 192 ≤ b.toNat) ∧ ∀ x ∈ tl, 128 ≤ x.toNat ∧ x.toNat < 192 := by
  have hr := toNat_range c
  unfold String.utf8EncodeChar
  simp only [show c.val.toNat = c.toNat from rfl]
  generalize c.toNat = v at *
  split
  · exact ⟨_, _, rfl, by simp [UInt8.toNat_ofNat']; omega, by simp⟩
  split
  · exact ⟨_, _, rfl, by simp only [UInt8.toNat_ofNat']; omega, by simp [UInt8.toNat_ofNat']; omega⟩
  split
  · exact ⟨_, _, rfl, by simp only [UInt8.toNat_ofNat']; omega, by
      simp [UInt8.toNat_ofNat']; omega⟩
  · exact ⟨_, _, rfl, by simp only [UInt8.toNat_ofNat']; omega, by
      simp [UInt8.toNat_ofNat']; omega⟩

theorem isCharBoundary_zero (b : Bytes) : Str.isCharBoundary b 0 = true := by
  simp [Str.isCharBoundary]

theorem isCharBoundary_append (a b : Bytes) (i : Nat) (ha : a.length ≤ i) (hb : Str.isCharBoundary b 0 = true)
    (hb' : ∀ x ∈ b.head?, x.toNat < 128 ∨ 192 ≤ x.toNat) :
    Str.isCharBoundary (a ++ b) i = Str.isCharBoundary b (i - a.length) := by
  rcases Nat.eq_or_lt_of_le ha with h | h
  · subst h
    simp only [Nat.sub_self, hb]
    unfold Str.isCharBoundary
    split
    · rfl
    · split
      · rename_i h1; simp at h1; have : b = [] := by rw [← List.length_eq_zero_iff]; omega
        simp [this]
      · rename_i h1 h2
        cases b with
        | nil => simp at h2
        | cons x b =>
          simp at hb'
          simp; omega
  · unfold Str.isCharBoundary
    rw [if_neg (by omega), if_neg (show ¬ (i - a.length = 0) by omega)]
    simp only [List.length_append]
    rw [List.getElem?_append_right (by omega)]
    by_cases h2 : b.length ≤ i - a.length
    · rw [if_pos (by omega), if_pos h2]
      rw [Bool.eq_iff_iff]; simp; omega
    · rw [if_neg (by omega), if_neg h2]

theorem utf8_head (cs : List Char) : ∀ x ∈ (utf8 cs).head?, x.toNat < 128 ∨ 192 ≤ x.toNat := by
  cases cs with
  | nil => simp
  | cons c cs =>
    obtain ⟨b, tl, h, hb, _⟩ := encode_head c
    simp [h, hb]

theorem isBoundary_cons (c : Char) (cs : List Char) (i : Nat) :
    IsBoundary (c :: cs) i ↔ i = 0 ∨ (c.utf8Size ≤ i ∧ IsBoundary cs (i - c.utf8Size)) := by
  constructor
  · rintro ⟨pre, post, h, hl⟩
    cases pre with
    | nil => left; simp at hl; omega
    | cons d pre =>
      simp at h
      obtain ⟨rfl, rfl⟩ := h
      right
      simp at hl
      exact ⟨by omega, pre, post, rfl, by omega⟩
  · rintro (rfl | ⟨h, pre, post, rfl, hl⟩)
    · exact ⟨[], c :: cs, rfl, rfl⟩
    · exact ⟨c :: pre, post, rfl, by simp; omega⟩

theorem isBoundary_nil (i : Nat) : IsBoundary [] i ↔ i = 0 := by
  constructor
  · rintro ⟨pre, post, h, hl⟩
    simp at h; obtain ⟨rfl, rfl⟩ := h
    simpa using hl.symm
  · rintro rfl; exact ⟨[], [], rfl, rfl⟩

/-- `str::is_char_boundary` on the bytes of a text is the boundary notion of the specification. -/
theorem isCharBoundary_utf8 (cs : List Char) : ∀ i,
    Str.isCharBoundary (utf8 cs) i = true ↔ IsBoundary cs i := by
  induction cs with
  | nil =>
    intro i
    rw [isBoundary_nil]
    simp [Str.isCharBoundary]
  | cons c cs ih =>
    intro i
    rw [isBoundary_cons]
    by_cases h0 : i = 0
    · simp [h0, isCharBoundary_zero]
    by_cases h : c.utf8Size ≤ i
    · rw [utf8_cons, isCharBoundary_append _ _ _ (by simpa using h) (isCharBoundary_zero _)
        (utf8_head cs)]
      simp [h0, h, ih]
    · simp only [h0, h, false_or, false_and, iff_false]
      obtain ⟨b, tl, he, hb, ht⟩ := encode_head c
      have hlen := length_encode c
      rw [he] at hlen
      simp at hlen
      unfold Str.isCharBoundary
      rw [if_neg h0, if_neg (by simp; omega)]
      rw [utf8_cons, List.getElem?_append_left (by simp; omega), he]
      obtain ⟨j, rfl⟩ : ∃ j, i = j + 1 := ⟨i - 1, by omega⟩
      rw [List.getElem?_cons_succ, List.getElem?_eq_getElem (by omega)]
      have := ht (tl[j]'(by omega)) (List.getElem_mem _)
      simp; omega

theorem IsBoundary.le {cs : List Char} {i : Nat} (h : IsBoundary cs i) : i ≤ byteLen cs := by
  obtain ⟨pre, post, rfl, rfl⟩ := h
  simp

theorem isBoundary_self (cs : List Char) : IsBoundary cs (byteLen cs) :=
  ⟨cs, [], by simp, rfl⟩

theorem isBoundary_zero (cs : List Char) : IsBoundary cs 0 := ⟨[], cs, rfl, rfl⟩

/-- Cutting a text at a byte offset is unique. -/
theorem CutAt.unique {cs : List Char} {i : Nat} {a b a' b' : List Char}
    (h : CutAt cs i a b) (h' : CutAt cs i a' b') : a = a' ∧ b = b' := by
  obtain ⟨rfl, hl⟩ := h
  obtain ⟨h, hl'⟩ := h'
  rcases List.append_eq_append_iff.1 h with ⟨x, rfl, rfl⟩ | ⟨x, rfl, rfl⟩ <;>
  · simp at hl hl'
    have : byteLen x = 0 := by omega
    rw [byteLen_eq_zero] at this
    simp [this]

/-- Two boundaries in order cut a text into three parts. -/
theorem cut_three {cs : List Char} {a b : Nat} (ha : IsBoundary cs a) (hb : IsBoundary cs b)
    (hab : a ≤ b) : ∃ p m q, cs = p ++ m ++ q ∧ byteLen p = a ∧ byteLen p + byteLen m = b := by
  obtain ⟨p, r, rfl, hp⟩ := ha
  obtain ⟨p', r', h, hp'⟩ := hb
  rcases List.append_eq_append_iff.1 h with ⟨x, rfl, rfl⟩ | ⟨x, rfl, rfl⟩
  · exact ⟨p, x, r', by simp, hp, by simpa using hp'⟩
  · simp at hp hp'
    have : byteLen x = 0 := by omega
    rw [byteLen_eq_zero] at this
    subst this
    exact ⟨p', [], r, by simp, by simp at hp; omega, by simp; omega⟩

/-! ## Validation -/

theorem isCont_iff (b : UInt8) : Str.isCont b = true ↔ 128 ≤ b.toNat ∧ b.toNat < 192 := by
  simp [Str.isCont]

theorem validAux_encode (c : Char) (rest : Bytes) (fuel : Nat) :
    Str.validAux (fuel + 1) (String.utf8EncodeChar c ++ rest) = Str.validAux fuel rest := by
  have hr := toNat_range c
  unfold String.utf8EncodeChar
  simp only [show c.val.toNat = c.toNat from rfl]
  generalize c.toNat = v at *
  split
  · simp only [List.cons_append, List.nil_append, Str.validAux, UInt8.toNat_ofNat']
    rw [if_pos (by omega)]
  split
  · simp only [List.cons_append, List.nil_append, Str.validAux, UInt8.toNat_ofNat']
    rw [if_neg (by omega), if_pos (by omega)]
    rw [show Str.isCont _ = true from (isCont_iff _).2 (by simp only [UInt8.toNat_ofNat']; omega)]
    rfl
  split
  · simp only [List.cons_append, List.nil_append, Str.validAux, UInt8.toNat_ofNat']
    rw [if_neg (by omega), if_neg (by omega), if_pos (by omega)]
    rw [(isCont_iff _).2 (by simp only [UInt8.toNat_ofNat']; omega),
      (isCont_iff _).2 (by simp only [UInt8.toNat_ofNat']; omega)]
    have h1 : ((v / 4096 % 16 + 224) % 2^8 != 224 || decide (160 ≤ (v / 64 % 64 + 128) % 2^8)) = true := by
      simp; omega
    have h2 : ((v / 4096 % 16 + 224) % 2^8 != 237 || decide ((v / 64 % 64 + 128) % 2^8 ≤ 159)) = true := by
      simp; omega
    rw [h1, h2]; rfl
  · simp only [List.cons_append, List.nil_append, Str.validAux, UInt8.toNat_ofNat']
    rw [if_neg (by omega), if_neg (by omega), if_neg (by omega), if_pos (by omega)]
    rw [(isCont_iff _).2 (by simp only [UInt8.toNat_ofNat']; omega),
      (isCont_iff _).2 (by simp only [UInt8.toNat_ofNat']; omega),
      (isCont_iff _).2 (by simp only [UInt8.toNat_ofNat']; omega)]
    have h1 : ((v / 262144 % 8 + 240) % 2^8 != 240 || decide (144 ≤ (v / 4096 % 64 + 128) % 2^8)) = true := by
      simp; omega
    have h2 : ((v / 262144 % 8 + 240) % 2^8 != 244 || decide ((v / 4096 % 64 + 128) % 2^8 ≤ 143)) = true := by
      simp; omega
    rw [h1, h2]; rfl

theorem validAux_utf8 (cs : List Char) : ∀ fuel, byteLen cs ≤ fuel → Str.validAux fuel (utf8 cs) = true := by
  induction cs with
  | nil => intro fuel _; cases fuel <;> rfl
  | cons c cs ih =>
    intro fuel h
    have := utf8Size_pos c
    simp at h
    obtain ⟨f, rfl⟩ : ∃ f, fuel = f + 1 := ⟨fuel - 1, by omega⟩
    rw [utf8_cons, validAux_encode]
    exact ih f (by omega)

@[simp] theorem validUtf8_utf8 (cs : List Char) : Str.validUtf8 (utf8 cs) = true :=
  validAux_utf8 cs _ (by simp)

/-- A scalar value with a given code. -/
theorem toNat_ofNat (v : Nat) (h : v < 0xD800 ∨ (0xDFFF < v ∧ v < 0x110000)) : (Char.ofNat v).toNat = v := by
  have : v.isValidChar := by simpa [Nat.isValidChar] using h
  simp [Char.ofNat, this, Char.ofNatAux, Char.toNat]

theorem exists_char (v : Nat) (h : v < 0xD800 ∨ (0xDFFF < v ∧ v < 0x110000)) :
    ∃ c : Char, c.toNat = v := ⟨Char.ofNat v, toNat_ofNat v h⟩

theorem ofNat_eq (b : UInt8) (n : Nat) (h : n = b.toNat) : UInt8.ofNat n = b := by
  subst h; simp

theorem validAux_decode : ∀ (fuel : Nat) (b : Bytes), Str.validAux fuel b = true → ∃ cs, b = utf8 cs := by
  intro fuel
  induction fuel with
  | zero => intro b h; cases b with
    | nil => exact ⟨[], rfl⟩
    | cons x b => simp [Str.validAux] at h
  | succ fuel ih =>
    intro b h
    cases b with
    | nil => exact ⟨[], rfl⟩
    | cons x r =>
      have hx := x.toNat_lt
      simp only [Str.validAux] at h
      split at h
      · obtain ⟨cs, rfl⟩ := ih _ h
        obtain ⟨c, hc⟩ := exists_char x.toNat (by omega)
        refine ⟨c :: cs, ?_⟩
        simp only [utf8_cons, String.utf8EncodeChar, show c.val.toNat = c.toNat from rfl, hc]
        rw [if_pos (by omega)]
        simp
      split at h
      · split at h
        · rename_i y r
          simp only [Bool.and_eq_true, isCont_iff] at h
          obtain ⟨cs, rfl⟩ := ih _ h.2
          obtain ⟨c, hc⟩ := exists_char (x.toNat % 32 * 64 + y.toNat % 64) (by omega)
          refine ⟨c :: cs, ?_⟩
          simp only [utf8_cons, String.utf8EncodeChar, show c.val.toNat = c.toNat from rfl, hc]
          rw [if_neg (by omega), if_pos (by omega)]
          rw [ofNat_eq x _ (by omega), ofNat_eq y _ (by omega)]
          rfl
        · simp at h
      split at h
      · split at h
        · rename_i y z r
          simp only [Bool.and_eq_true, isCont_iff, Bool.or_eq_true, bne_iff_ne, decide_eq_true_eq] at h
          obtain ⟨cs, rfl⟩ := ih _ h.2
          obtain ⟨c, hc⟩ := exists_char (x.toNat % 16 * 4096 + y.toNat % 64 * 64 + z.toNat % 64) (by omega)
          refine ⟨c :: cs, ?_⟩
          simp only [utf8_cons, String.utf8EncodeChar, show c.val.toNat = c.toNat from rfl, hc]
          rw [if_neg (by omega), if_neg (by omega), if_pos (by omega)]
          rw [ofNat_eq x _ (by omega), ofNat_eq y _ (by omega), ofNat_eq z _ (by omega)]
          rfl
        · simp at h
      split at h
      · split at h
        · rename_i y z w r
          simp only [Bool.and_eq_true, isCont_iff, Bool.or_eq_true, bne_iff_ne, decide_eq_true_eq] at h
          obtain ⟨cs, rfl⟩ := ih _ h.2
          obtain ⟨c, hc⟩ := exists_char (x.toNat % 8 * 262144 + y.toNat % 64 * 4096 + z.toNat % 64 * 64
            + w.toNat % 64) (by omega)
          refine ⟨c :: cs, ?_⟩
          simp only [utf8_cons, String.utf8EncodeChar, show c.val.toNat = c.toNat from rfl, hc]
          rw [if_neg (by omega), if_neg (by omega), if_neg (by omega)]
          rw [ofNat_eq x _ (by omega), ofNat_eq y _ (by omega), ofNat_eq z _ (by omega),
            ofNat_eq w _ (by omega)]
          rfl
        · simp at h
      · simp at h

/-- The validator accepts exactly the UTF-8 encodings of texts. -/
theorem validUtf8_iff (b : Bytes) : Str.validUtf8 b = true ↔ ∃ cs, b = utf8 cs :=
  ⟨validAux_decode _ b, by rintro ⟨cs, rfl⟩; simp⟩

end Verif
