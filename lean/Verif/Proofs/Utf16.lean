import Verif.Proofs.Iter
import Verif.Spec.Utf16

/-! # UTF-16 -/

namespace Verif
open Spec ArrayString

theorem toNat_ofNat16 {n : Nat} (h : n < 65536) : (UInt16.ofNat n).toNat = n := by
  simp [UInt16.toNat_ofNat']; omega

theorem char_ext {a b : Char} (h : a.toNat = b.toNat) : a = b := by
  rw [← Char.ofNat_toNat a, h, Char.ofNat_toNat]

theorem toNat_ofNat_char {n : Nat} (h : n < 0xD800 ∨ 0xDFFF < n ∧ n < 0x110000) : (Char.ofNat n).toNat = n := by
  have hv : n.isValidChar := by
    rcases h with h | h
    · exact .inl (by omega)
    · exact .inr ⟨by omega, by omega⟩
  simp [Char.ofNat, hv, Char.ofNatAux, Char.toNat]

/-- The units still to be decoded, from the decoder's state. -/
def pending : Option UInt16 × List UInt16 → List UInt16
  | (some u, l) => u :: l
  | (none, l) => l

theorem decode_buffered (u : UInt16) (l : List UInt16) :
    Str.decodeUtf16Next (some u, l) = Str.decodeUtf16Next (none, u :: l) := rfl

theorem decode_state {k : Option UInt16 × List UInt16} :
    Str.decodeUtf16Next k = Str.decodeUtf16Next (none, pending k) := by
  obtain ⟨_ | u, l⟩ := k <;> rfl

/-- A piece as the decoder reports it. -/
def Seg.toItem : Seg → Option Char
  | .chr c => some c
  | .lone _ => none

theorem head_units_not_low {c : Char} {u : UInt16} {t : List UInt16} (h : utf16Char c = u :: t) : ¬ IsLow u := by
  have hr := toNat_range c
  unfold utf16Char at h
  unfold IsLow
  split at h
  · simp only [List.cons.injEq] at h; obtain ⟨rfl, _⟩ := h
    rw [toNat_ofNat16 (by omega)]; omega
  · simp only [List.cons.injEq] at h; obtain ⟨rfl, _⟩ := h
    rw [toNat_ofNat16 (by omega)]; omega

theorem head_seg_low {s : Seg} {segs : List Seg} {v : UInt16} {t : List UInt16}
    (h : segUnits (s :: segs) = v :: t) (hv : IsLow v) : s = .lone v := by
  cases s with
  | lone u => simp [segUnits, Seg.units] at h; rw [h.1]
  | chr c =>
    exfalso
    have hne : utf16Char c ≠ [] := by unfold utf16Char; split <;> simp
    cases hc : utf16Char c with
    | nil => exact hne hc
    | cons a r =>
      have := head_units_not_low hc
      simp [segUnits, Seg.units, hc] at h
      rw [h.1] at this
      exact this hv

/-- One step of the decoder takes exactly the first piece. -/
theorem decode_step {k : Option UInt16 × List UInt16} {sg : Seg} {segs : List Seg}
    (hok : SegsOk (sg :: segs)) (h : pending k = segUnits (sg :: segs)) :
    ∃ k', Str.decodeUtf16Next k = .item (Seg.toItem sg) k' ∧ pending k' = segUnits segs := by
  rw [decode_state, h]
  cases sg with
  | chr c =>
    have hr := toNat_range c
    simp only [segUnits, List.flatMap_cons, Seg.units, utf16Char]
    split
    · rename_i hc
      refine ⟨(none, segUnits segs), ?_, rfl⟩
      simp only [Str.decodeUtf16Next, List.cons_append, List.nil_append]
      rw [toNat_ofNat16 hc, if_pos (by omega), Char.ofNat_toNat]
      rfl
    · rename_i hc
      refine ⟨(none, segUnits segs), ?_, rfl⟩
      simp only [Str.decodeUtf16Next, List.cons_append, List.nil_append]
      rw [toNat_ofNat16 (by omega), toNat_ofNat16 (by omega)]
      rw [if_neg (by omega), if_neg (by omega), if_neg (by omega)]
      have : (0xD800 + (c.toNat - 0x10000) / 1024) % 1024 * 1024 + (0xDC00 + (c.toNat - 0x10000) % 1024) % 1024
          + 0x10000 = c.toNat := by omega
      rw [this, Char.ofNat_toNat]
      rfl
  | lone u =>
    obtain ⟨h1, h2, h3⟩ := hok
    simp only [segUnits, List.flatMap_cons, Seg.units, Str.decodeUtf16Next, List.cons_append, List.nil_append]
    have hsur : ¬ (u.toNat / 2048 ≠ 27) := by
      rcases h1 with h1 | h1 <;> unfold IsHigh IsLow at * <;> omega
    rw [if_neg hsur]
    by_cases hl : 0xDC00 ≤ u.toNat
    · rw [if_pos hl]
      exact ⟨_, rfl, rfl⟩
    · rw [if_neg hl]
      have hh : IsHigh u := by rcases h1 with h1 | h1 <;> unfold IsHigh IsLow at * <;> omega
      cases hseg : List.flatMap Seg.units segs with
      | nil => exact ⟨_, rfl, rfl⟩
      | cons v t =>
        have hv : ¬ IsLow v := by
          intro hv
          cases segs with
          | nil => simp at hseg
          | cons s2 rest =>
            have := head_seg_low (s := s2) (segs := rest) hseg hv
            subst this
            exact h2 hh v rest rfl hv
        refine ⟨(some v, t), ?_, rfl⟩
        simp only
        rw [if_pos (by unfold IsLow at hv; omega)]
        rfl

theorem decode_done {k : Option UInt16 × List UInt16} (h : pending k = []) :
    ∃ k', Str.decodeUtf16Next k = .done k' := by
  rw [decode_state, h]
  exact ⟨_, rfl⟩

/-! ## The decomposition exists and is unique -/

theorem segment_cases (l : List UInt16) : ∃ segs, Segments l segs := by
  induction hn : l.length using Nat.strongRecOn generalizing l with
  | ind n ih =>
    cases l with
    | nil => exact ⟨[], rfl, trivial⟩
    | cons u l =>
      have hu := u.toNat_lt
      by_cases hs : IsHigh u ∨ IsLow u
      · by_cases hp : IsHigh u ∧ ∃ v t, l = v :: t ∧ IsLow v
        · obtain ⟨hh, v, t, rfl, hv⟩ := hp
          obtain ⟨segs, h1, h2⟩ := ih t.length (by simp at hn; omega) t rfl
          have hv' := v.toNat_lt
          unfold IsHigh IsLow at *
          let n := (u.toNat - 0xD800) * 1024 + (v.toNat - 0xDC00) + 0x10000
          have hn' : n = (u.toNat - 0xD800) * 1024 + (v.toNat - 0xDC00) + 0x10000 := rfl
          have hc : (Char.ofNat n).toNat = n := toNat_ofNat_char (by omega)
          refine ⟨.chr (Char.ofNat n) :: segs, ?_, h2⟩
          simp only [segUnits, List.flatMap_cons, Seg.units, utf16Char, hc]
          rw [if_neg (by omega)]
          have e1 : 0xD800 + (n - 0x10000) / 1024 = u.toNat := by omega
          have e2 : 0xDC00 + (n - 0x10000) % 1024 = v.toNat := by omega
          rw [e1, e2]
          simp
          exact h1
        · obtain ⟨segs, h1, h2⟩ := ih l.length (by simp at hn; omega) l rfl
          refine ⟨.lone u :: segs, ?_, hs, ?_, h2⟩
          · simp only [segUnits, List.flatMap_cons, Seg.units]; simp; exact h1
          · rintro hh v rest rfl hv
            exact hp ⟨hh, v, segUnits rest, by rw [← h1]; rfl, hv⟩
      · obtain ⟨segs, h1, h2⟩ := ih l.length (by simp at hn; omega) l rfl
        unfold IsHigh IsLow at hs
        have hc : (Char.ofNat u.toNat).toNat = u.toNat := toNat_ofNat_char (by omega)
        refine ⟨.chr (Char.ofNat u.toNat) :: segs, ?_, h2⟩
        simp only [segUnits, List.flatMap_cons, Seg.units, utf16Char, hc]
        rw [if_pos (by omega)]
        simp
        exact h1

theorem exists_segments (l : List UInt16) : ∃ segs, Segments l segs := segment_cases l

theorem units_ne_nil (s : Seg) : s.units ≠ [] := by
  cases s with
  | chr c => simp [Seg.units, utf16Char]; split <;> simp
  | lone u => simp [Seg.units]

theorem Segments.unique {l : List UInt16} {a b : List Seg} (ha : Segments l a) (hb : Segments l b) : a = b := by
  obtain ⟨ha1, ha2⟩ := ha
  obtain ⟨hb1, hb2⟩ := hb
  subst ha1
  induction a generalizing b with
  | nil =>
    cases b with
    | nil => rfl
    | cons s b => simp [segUnits, units_ne_nil] at hb1
  | cons s a ih =>
    cases b with
    | nil => simp [segUnits, units_ne_nil] at hb1
    | cons t b =>
      obtain ⟨k1, e1, p1⟩ := decode_step (k := (none, segUnits (s :: a))) ha2 rfl
      obtain ⟨k2, e2, p2⟩ := decode_step (k := (none, segUnits (s :: a))) hb2 hb1.symm
      rw [e1] at e2
      simp only [Step.item.injEq] at e2
      obtain ⟨hi, rfl⟩ := e2
      have hrest : segUnits b = segUnits a := p2.symm.trans p1
      have hst : s = t := by
        have hu : s.units = t.units := by
          have : s.units ++ segUnits a = t.units ++ segUnits a := by
            have := hb1.symm
            simp only [segUnits, List.flatMap_cons] at this hrest ⊢
            rw [this, hrest]
          exact List.append_cancel_right this
        cases s <;> cases t <;> simp [Seg.toItem, Seg.units] at hi hu ⊢ <;> assumption
      subst hst
      rw [ih (b := b) (by cases s <;> first | exact ha2 | exact ha2.2.2)
        (by cases s <;> first | exact hb2 | exact hb2.2.2) hrest]

/-- The decomposition of valid UTF-16. -/
theorem segments_utf16 (cs : List Char) : Segments (utf16 cs) (cs.map .chr) := by
  refine ⟨?_, ?_⟩
  · unfold segUnits utf16
    rw [List.flatMap_map]; rfl
  · induction cs with
    | nil => trivial
    | cons c cs ih => exact ih

theorem leadingChars_map (cs : List Char) : leadingChars (cs.map .chr) = cs := by
  induction cs with
  | nil => rfl
  | cons c cs ih => simp [leadingChars, ih]

/-- The pieces are the leading characters, then possibly an unpaired surrogate. -/
theorem leading_split (segs : List Seg) :
    segs = (leadingChars segs).map .chr ∨
    ∃ u rest, segs = (leadingChars segs).map .chr ++ .lone u :: rest := by
  induction segs with
  | nil => left; rfl
  | cons s segs ih =>
    cases s with
    | chr c =>
      simp only [leadingChars, List.map_cons]
      rcases ih with h | ⟨u, rest, h⟩
      · left; rw [← h]
      · right; exact ⟨u, rest, by rw [List.cons_append, ← h]⟩
    | lone u => right; exact ⟨u, segs, by simp [leadingChars]⟩

theorem SegsOk.append {a b : List Seg} (h : SegsOk (a ++ b)) : SegsOk b := by
  induction a with
  | nil => exact h
  | cons s a ih => cases s <;> first | exact ih h | exact ih h.2.2

theorem validUtf16_iff {l : List UInt16} {segs : List Seg} (h : Segments l segs) :
    ValidUtf16 l ↔ segs = (leadingChars segs).map .chr := by
  constructor
  · rintro ⟨cs, rfl⟩
    have := Segments.unique h (segments_utf16 cs)
    rw [this, leadingChars_map]
  · intro hh
    refine ⟨leadingChars segs, ?_⟩
    rw [← (segments_utf16 (leadingChars segs)).1, ← hh]
    exact h.1

/-! ## The loops -/

variable {N : Nat} {ε : Type}

theorem tryFromUtf16Loop_run (hN : N ≤ 255) {w : List Char} {tail : List Seg} :
    ∀ {k : Option UInt16 × List UInt16} {out : ArrayString N} {cs : List Char}, Holds out cs →
    SegsOk (w.map .chr ++ tail) → pending k = segUnits (w.map .chr ++ tail) →
    byteLen cs + byteLen w ≤ N →
    ∃ k' out', Holds out' (cs ++ w) ∧ pending k' = segUnits tail ∧
      tryFromUtf16Loop k out = tryFromUtf16Loop k' out' := by
  induction w with
  | nil => intro k out cs hs _ hp _; exact ⟨k, out, by simpa using hs, hp, rfl⟩
  | cons c w ih =>
    intro k out cs hs hok hp hf
    simp at hf
    obtain ⟨k1, e1, p1⟩ := decode_step hok hp
    obtain ⟨o1, e2, h1⟩ := tryPush_ok hN (c := c) hs (by omega)
    obtain ⟨k2, o2, h2, p2, e3⟩ := ih h1 hok p1 (by simp; omega)
    refine ⟨k2, o2, by simpa using h2, p2, ?_⟩
    rw [tryFromUtf16Loop, e1]
    simp only [Seg.toItem, e2]
    exact e3

theorem fromUtf16TruncateLoop_run (hN : N ≤ 255) {w : List Char} {tail : List Seg} :
    ∀ {k : Option UInt16 × List UInt16} {out : ArrayString N} {cs : List Char}, Holds out cs →
    SegsOk (w.map .chr ++ tail) → pending k = segUnits (w.map .chr ++ tail) →
    byteLen cs + byteLen w ≤ N →
    ∃ k' out', Holds out' (cs ++ w) ∧ pending k' = segUnits tail ∧
      fromUtf16TruncateLoop k out = fromUtf16TruncateLoop k' out' := by
  induction w with
  | nil => intro k out cs hs _ hp _; exact ⟨k, out, by simpa using hs, hp, rfl⟩
  | cons c w ih =>
    intro k out cs hs hok hp hf
    simp at hf
    obtain ⟨k1, e1, p1⟩ := decode_step hok hp
    obtain ⟨o1, e2, h1⟩ := tryPush_ok hN (c := c) hs (by omega)
    obtain ⟨k2, o2, h2, p2, e3⟩ := ih h1 hok p1 (by simp; omega)
    refine ⟨k2, o2, by simpa using h2, p2, ?_⟩
    rw [fromUtf16TruncateLoop, e1]
    simp only [Seg.toItem, e2]
    exact e3

theorem toItem_lossy (s : Seg) : (Seg.toItem s).getD Str.replacementCharacter = s.lossy := by
  cases s <;> rfl

theorem fromUtf16LossyTruncateLoop_ok (hN : N ≤ 255) {segs : List Seg} :
    ∀ {k : Option UInt16 × List UInt16} {out : ArrayString N} {cs : List Char}, Holds out cs →
    SegsOk segs → pending k = segUnits segs →
    ∃ out', (fromUtf16LossyTruncateLoop k out : Res ε _) = .ok out' ∧
      Holds out' (cs ++ takeFit (N - byteLen cs) (segs.map Seg.lossy)) := by
  induction segs with
  | nil =>
    intro k out cs hs _ hp
    obtain ⟨k', e⟩ := decode_done hp
    refine ⟨out, ?_, by simpa [takeFit] using hs⟩
    rw [fromUtf16LossyTruncateLoop, e]
  | cons sg segs ih =>
    intro k out cs hs hok hp
    have hle := hs.le
    obtain ⟨k1, e1, p1⟩ := decode_step hok hp
    have hok' : SegsOk segs := SegsOk.append (a := [sg]) hok
    by_cases hf : byteLen cs + sg.lossy.utf8Size ≤ N
    · obtain ⟨o1, e2, h1⟩ := tryPush_ok hN (c := sg.lossy) hs hf
      obtain ⟨o2, e3, h2⟩ := ih h1 hok' p1
      refine ⟨o2, ?_, ?_⟩
      · rw [fromUtf16LossyTruncateLoop, e1]
        simp only [toItem_lossy, e2]
        exact e3
      · simp only [List.map_cons, takeFit]
        rw [if_pos (by omega)]
        simp only [byteLen_append, byteLen_cons, byteLen_nil, Nat.add_zero] at h2
        rw [Nat.sub_sub]
        simpa using h2
    · refine ⟨out, ?_, ?_⟩
      · rw [fromUtf16LossyTruncateLoop, e1]
        simp only [toItem_lossy, tryPush_err hN (c := sg.lossy) hs (by omega)]
      · simp only [List.map_cons, takeFit]
        rw [if_neg (by omega)]
        simpa using hs

/-- All outcomes of `try_from_utf16`, in terms of the decomposition of its argument. -/
theorem tryFromUtf16_spec (hN : N ≤ 255) {l : List UInt16} {segs : List Seg} (h : Segments l segs) :
    (byteLen (leadingChars segs) ≤ N → ValidUtf16 l →
      ∃ s : ArrayString N, tryFromUtf16 l = .ok s ∧ Holds s (leadingChars segs)) ∧
    (byteLen (leadingChars segs) ≤ N → ¬ ValidUtf16 l →
      (tryFromUtf16 l : Res Error (ArrayString N)) = .err .utf16) ∧
    (N < byteLen (leadingChars segs) →
      (tryFromUtf16 l : Res Error (ArrayString N)) = .err .outOfBounds) := by
  obtain ⟨h1, h2⟩ := id h
  have hvalid := validUtf16_iff h
  have hsplit := leading_split segs
  generalize hw : leadingChars segs = w at *
  subst h1
  unfold tryFromUtf16
  refine ⟨fun hf hv => ?_, fun hf hv => ?_, fun hf => ?_⟩
  · have he := hvalid.1 hv
    obtain ⟨k', o, ho, hp, e⟩ := tryFromUtf16Loop_run hN (w := w) (tail := []) (k := (none, segUnits segs))
      (holds_new (N := N)) (by simpa [← he] using h2) (by simp [← he, pending]) (by simpa using hf)
    obtain ⟨k2, e2⟩ := decode_done hp
    refine ⟨o, ?_, by simpa using ho⟩
    rw [e, tryFromUtf16Loop, e2]
  · rcases hsplit with hs | ⟨u, rest, hs⟩
    · exact absurd (hvalid.2 hs) hv
    · obtain ⟨k', o, ho, hp, e⟩ := tryFromUtf16Loop_run hN (w := w) (tail := .lone u :: rest)
        (k := (none, segUnits segs)) (holds_new (N := N)) (by rw [← hs]; exact h2) (by rw [← hs]; rfl)
        (by simpa using hf)
      obtain ⟨k2, e2, _⟩ := decode_step (SegsOk.append (hs ▸ h2)) hp
      rw [e, tryFromUtf16Loop, e2]
      rfl
  · rcases takeFit_split N w with ⟨_, h⟩ | ⟨c, post, h3, h4⟩
    · omega
    · have hs : ∃ tail, segs = (takeFit N w).map .chr ++ .chr c :: tail := by
        rcases hsplit with hs | ⟨u, rest, hs⟩
        · rw [h3] at hs; exact ⟨post.map .chr, by rw [hs]; simp⟩
        · rw [h3] at hs; exact ⟨post.map .chr ++ .lone u :: rest, by rw [hs]; simp⟩
      obtain ⟨tail, hs⟩ := hs
      have hfit := byteLen_takeFit_le N w
      generalize takeFit N w = t at *
      obtain ⟨k', o, ho, hp, e⟩ := tryFromUtf16Loop_run hN (w := t) (tail := .chr c :: tail)
        (k := (none, segUnits segs)) (holds_new (N := N)) (by rw [← hs]; exact h2) (by rw [← hs]; rfl)
        (by simpa using hfit)
      obtain ⟨k2, e2, _⟩ := decode_step (SegsOk.append (hs ▸ h2)) hp
      rw [e, tryFromUtf16Loop, e2]
      simp only [Seg.toItem, tryPush_err hN (c := c) ho (by simpa using h4)]
      rfl

/-- All outcomes of `from_utf16_truncate`. -/
theorem fromUtf16Truncate_spec (hN : N ≤ 255) {l : List UInt16} {segs : List Seg} (h : Segments l segs) :
    ((ValidUtf16 l ∨ N < byteLen (leadingChars segs)) →
      ∃ s : ArrayString N, fromUtf16Truncate l = .ok s ∧ Holds s (takeFit N (leadingChars segs))) ∧
    (byteLen (leadingChars segs) ≤ N → ¬ ValidUtf16 l →
      (fromUtf16Truncate l : Res Utf16 (ArrayString N)) = .err {}) := by
  obtain ⟨h1, h2⟩ := id h
  have hvalid := validUtf16_iff h
  have hsplit := leading_split segs
  generalize hw : leadingChars segs = w at *
  subst h1
  unfold fromUtf16Truncate
  refine ⟨fun hv => ?_, fun hf hv => ?_⟩
  · rcases takeFit_split N w with ⟨h3, h⟩ | ⟨c, post, h3, h4⟩
    · have he := hvalid.1 (by rcases hv with hv | hv; exact hv; omega)
      obtain ⟨k', o, ho, hp, e⟩ := fromUtf16TruncateLoop_run hN (w := w) (tail := []) (k := (none, segUnits segs))
        (holds_new (N := N)) (by simpa [← he] using h2) (by simp [← he, pending]) (by simpa using h)
      obtain ⟨k2, e2⟩ := decode_done hp
      refine ⟨o, ?_, by rw [h3]; simpa using ho⟩
      rw [e, fromUtf16TruncateLoop, e2]
    · have hs : ∃ tail, segs = (takeFit N w).map .chr ++ .chr c :: tail := by
        rcases hsplit with hs | ⟨u, rest, hs⟩
        · rw [h3] at hs; exact ⟨post.map .chr, by rw [hs]; simp⟩
        · rw [h3] at hs; exact ⟨post.map .chr ++ .lone u :: rest, by rw [hs]; simp⟩
      obtain ⟨tail, hs⟩ := hs
      have hfit := byteLen_takeFit_le N w
      generalize takeFit N w = t at *
      obtain ⟨k', o, ho, hp, e⟩ := fromUtf16TruncateLoop_run hN (w := t) (tail := .chr c :: tail)
        (k := (none, segUnits segs)) (holds_new (N := N)) (by rw [← hs]; exact h2) (by rw [← hs]; rfl)
        (by simpa using hfit)
      obtain ⟨k2, e2, _⟩ := decode_step (SegsOk.append (hs ▸ h2)) hp
      refine ⟨o, ?_, by simpa using ho⟩
      rw [e, fromUtf16TruncateLoop, e2]
      simp only [Seg.toItem, tryPush_err hN (c := c) ho (by simpa using h4)]
  · rcases hsplit with hs | ⟨u, rest, hs⟩
    · exact absurd (hvalid.2 hs) hv
    · obtain ⟨k', o, ho, hp, e⟩ := fromUtf16TruncateLoop_run hN (w := w) (tail := .lone u :: rest)
        (k := (none, segUnits segs)) (holds_new (N := N)) (by rw [← hs]; exact h2) (by rw [← hs]; rfl)
        (by simpa using hf)
      obtain ⟨k2, e2, _⟩ := decode_step (SegsOk.append (hs ▸ h2)) hp
      rw [e, fromUtf16TruncateLoop, e2]
      rfl

theorem fromUtf16LossyTruncate_spec (hN : N ≤ 255) {l : List UInt16} {segs : List Seg} (h : Segments l segs) :
    ∃ s : ArrayString N, (fromUtf16LossyTruncate l : Res ε _) = .ok s ∧
      Holds s (takeFit N (segs.map Seg.lossy)) := by
  obtain ⟨s, e, hs⟩ := fromUtf16LossyTruncateLoop_ok (ε := ε) hN (segs := segs) (k := (none, l))
    (holds_new (N := N)) h.2 h.1.symm
  exact ⟨s, e, by simpa using hs⟩

end Verif
