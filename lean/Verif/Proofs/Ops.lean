import Verif.Proofs.Core
import Verif.Proofs.Fit

/-! # Per-method facts -/

namespace Verif
open Spec ArrayString

variable {N : Nat} {ε : Type} {s : ArrayString N} {cs : List Char}

/-! ## `replace_range`, remaining cases -/

theorem replaceRange_noop {r : RangeB} (h : rangeStart r = rangeEnd r s.len) :
    replaceRange r [] s = (.ok (), s) := by
  unfold replaceRange
  simp only [M.bind_apply, M.self_apply]
  rw [if_pos ⟨h, rfl⟩]; rfl

theorem replaceRange_oob {r : RangeB} {w : Bytes} (hne : ¬ (rangeStart r = rangeEnd r s.len ∧ w = []))
    (h : ¬ (rangeStart r ≤ rangeEnd r s.len ∧ rangeEnd r s.len ≤ s.len ∧ w.length ≤ N)) :
    replaceRange r w s = (.err .outOfBounds, s) := by
  unfold replaceRange
  simp only [M.bind_apply, M.self_apply, List.isEmpty_iff]
  rw [if_neg hne]
  by_cases h1 : rangeStart r ≤ rangeEnd r s.len
  · by_cases h2 : rangeEnd r s.len ≤ s.len
    · simp [M.bind_apply, isInsideBoundary_ok h1, isInsideBoundary_ok h2,
        isInsideBoundary_err (show ¬ w.length ≤ capacity N from fun h3 => h ⟨h1, h2, h3⟩)]
    · simp [M.bind_apply, isInsideBoundary_ok h1, isInsideBoundary_err h2]
  · simp [M.bind_apply, isInsideBoundary_err h1]

theorem replaceRange_utf8 {r : RangeB} {w : Bytes} (hs : Holds s cs)
    (hne : ¬ (rangeStart r = rangeEnd r s.len ∧ w = []))
    (h1 : rangeStart r ≤ rangeEnd r s.len) (h2 : rangeEnd r s.len ≤ s.len) (h3 : w.length ≤ N)
    (h : ¬ (IsBoundary cs (rangeStart r) ∧ IsBoundary cs (rangeEnd r s.len))) :
    replaceRange r w s = (.err .utf8, s) := by
  unfold replaceRange
  simp only [M.bind_apply, M.self_apply, List.isEmpty_iff]
  rw [if_neg hne]
  by_cases h4 : IsBoundary cs (rangeStart r)
  · simp [M.bind_apply, isInsideBoundary_ok h1, isInsideBoundary_ok h2,
      isInsideBoundary_ok (show w.length ≤ capacity N from h3), hs.isCharBoundary_true h4,
      hs.isCharBoundary_false (fun h5 => h ⟨h4, h5⟩)]
  · simp [M.bind_apply, isInsideBoundary_ok h1, isInsideBoundary_ok h2,
      isInsideBoundary_ok (show w.length ≤ capacity N from h3), hs.isCharBoundary_false h4]

theorem replaceRange_full (hN : N ≤ 255) {r : RangeB} {w : Bytes} (hs : Holds s cs)
    (h1 : rangeStart r ≤ rangeEnd r s.len) (h2 : rangeEnd r s.len ≤ s.len) (h3 : w.length ≤ N)
    (h4 : IsBoundary cs (rangeStart r)) (h5 : IsBoundary cs (rangeEnd r s.len))
    (h : N < s.len + w.length + rangeStart r - rangeEnd r s.len) :
    replaceRange r w s = (.err .outOfBounds, s) := by
  have hM := usizeMax_ge
  have hl : s.len ≤ N := hs.2.1
  unfold replaceRange
  simp only [M.bind_apply, M.self_apply, List.isEmpty_iff]
  rw [if_neg (by rintro ⟨h6, rfl⟩; simp at h; omega)]
  simp [M.bind_apply, isInsideBoundary_ok h1, isInsideBoundary_ok h2,
      isInsideBoundary_ok (show w.length ≤ capacity N from h3), hs.isCharBoundary_true h4,
      hs.isCharBoundary_true h5, addUsize_ok (show s.len + w.length ≤ usizeMax by omega),
      addUsize_ok (show s.len + w.length + rangeStart r ≤ usizeMax by omega),
      subUsize_ok (show rangeEnd r s.len ≤ s.len + w.length + rangeStart r by omega),
      isInsideBoundary_err (show ¬ (s.len + w.length + rangeStart r - rangeEnd r s.len ≤ capacity N) by
        unfold capacity; omega)]

/-- `replace_range` never faults: it returns `Ok` or `Err`, `Err` leaves everything as it was, and
the result holds some text. -/
theorem replaceRange_total (hN : N ≤ 255) (r : RangeB) (w : List Char) (hs : Holds s cs) :
    (∃ s' cs', replaceRange r (utf8 w) s = (.ok (), s') ∧ Holds s' cs') ∨
    (∃ e, replaceRange r (utf8 w) s = (.err e, s)) := by
  by_cases h0 : rangeStart r = rangeEnd r s.len ∧ w = []
  · left; obtain ⟨h, rfl⟩ := h0; exact ⟨s, cs, replaceRange_noop h, hs⟩
  have h0' : ¬ (rangeStart r = rangeEnd r s.len ∧ utf8 w = []) := by rwa [utf8_eq_nil]
  by_cases h1 : rangeStart r ≤ rangeEnd r s.len ∧ rangeEnd r s.len ≤ s.len ∧ (utf8 w).length ≤ N
  · obtain ⟨h1, h2, h3⟩ := h1
    by_cases hb : IsBoundary cs (rangeStart r) ∧ IsBoundary cs (rangeEnd r s.len)
    · obtain ⟨p, m, q, rfl, hp, hm⟩ := cut_three hb.1 hb.2 h1
      have hl := hs.len
      simp at hl
      by_cases hf : byteLen p + byteLen w + byteLen q ≤ N
      · left
        obtain ⟨s', e, hh⟩ := replaceRange_ok hN (w := w) (r := r) hs hp.symm hm.symm hf
        exact ⟨s', _, e, hh⟩
      · right
        exact ⟨_, replaceRange_full hN hs h1 h2 h3 hb.1 hb.2 (by simp; omega)⟩
    · right; exact ⟨_, replaceRange_utf8 hs h0' h1 h2 h3 hb⟩
  · right; exact ⟨_, replaceRange_oob h0' h1⟩

/-! ## Appending -/

theorem tryPushStr_ok (hN : N ≤ 255) {w : List Char} (hs : Holds s cs)
    (h : byteLen cs + byteLen w ≤ N) :
    ∃ s' : ArrayString N, tryPushStr (utf8 w) s = (.ok (), s') ∧ Holds s' (cs ++ w) := by
  obtain ⟨s', e, hh⟩ := replaceRange_ok hN (p := cs) (m := []) (q := []) (w := w)
    (r := .range s.len s.len) (by simpa using hs) hs.len (by show s.len = _; simpa using hs.len) (by simpa using h)
  refine ⟨s', ?_, by simpa using hh⟩
  unfold tryPushStr
  simp [M.bind_apply, e]

theorem tryPushStr_err (hN : N ≤ 255) {w : List Char} (hs : Holds s cs)
    (h : N < byteLen cs + byteLen w) :
    tryPushStr (utf8 w) s = (.err {}, s) := by
  have hle := hs.le
  have hw : w ≠ [] := by rintro rfl; simp at h; omega
  have hlen := hs.len
  have key : replaceRange (.range s.len s.len) (utf8 w) s = (.err .outOfBounds, s) := by
    by_cases hwN : byteLen w ≤ N
    · apply replaceRange_full hN hs
      · exact Nat.le_refl _
      · exact Nat.le_refl _
      · simpa using hwN
      · show IsBoundary cs s.len; rw [hlen]; exact isBoundary_self cs
      · show IsBoundary cs s.len; rw [hlen]; exact isBoundary_self cs
      · show N < s.len + (utf8 w).length + s.len - s.len; simp; omega
    · apply replaceRange_oob
      · rintro ⟨_, h2⟩; exact hw (utf8_eq_nil.1 h2)
      · rintro ⟨_, _, h3⟩; simp at h3; omega
  unfold tryPushStr
  simp [M.bind_apply, key]

theorem encodeUtf8_eq (c : Char) : Str.encodeUtf8 c = utf8 [c] := by simp [Str.encodeUtf8]

theorem tryPush_ok (hN : N ≤ 255) {c : Char} (hs : Holds s cs) (h : byteLen cs + c.utf8Size ≤ N) :
    ∃ s' : ArrayString N, tryPush c s = (.ok (), s') ∧ Holds s' (cs ++ [c]) := by
  unfold tryPush; rw [encodeUtf8_eq]
  exact tryPushStr_ok hN hs (by simpa using h)

theorem tryPush_err (hN : N ≤ 255) {c : Char} (hs : Holds s cs) (h : N < byteLen cs + c.utf8Size) :
    tryPush c s = (.err {}, s) := by
  unfold tryPush; rw [encodeUtf8_eq]
  exact tryPushStr_err hN hs (by simpa using h)

theorem getUnchecked_zero {w pre : List Char} (h : ∃ post, w = pre ++ post) :
    (Str.getUnchecked (utf8 w) 0 (byteLen pre) : Res ε Bytes) = .ok (utf8 pre) := by
  obtain ⟨post, rfl⟩ := h
  unfold Str.getUnchecked
  rw [if_pos ⟨Nat.zero_le _, by simp, isCharBoundary_zero _,
    (isCharBoundary_utf8 _ _).2 ⟨pre, post, rfl, rfl⟩⟩]
  simp [List.take_left']

/-- `truncate_str` returns the longest fitting prefix. -/
theorem truncateStr_utf8 (w : List Char) (n : Nat) :
    (truncateStr (utf8 w) n : Res ε Bytes) = .ok (utf8 (takeFit n w)) := by
  unfold truncateStr
  by_cases h : (utf8 w).length ≤ n
  · rw [if_pos h, takeFit_of_le (by simpa using h)]
  rw [if_neg h]
  simp at h
  have hf := longestFit_takeFit n w
  have h4 := hf.lt_add_four h
  have hle := byteLen_takeFit_le n w
  have hb := hf.isBoundary
  have hpre := takeFit_prefix n w
  have step : ∀ k, k ≤ n → byteLen (takeFit n w) ≤ k → (Str.isCharBoundary (utf8 w) k = true ↔ k = byteLen (takeFit n w)) := by
    intro k hk hk'
    rw [isCharBoundary_utf8]
    constructor
    · intro hb'; have := hf.boundary_le hb' hk; omega
    · rintro rfl; exact hb
  have g := getUnchecked_zero (ε := ε) hpre
  generalize takeFit n w = t at *
  generalize byteLen t = L at *
  by_cases e0 : n = L
  · rw [if_pos ((step n (by omega) (by omega)).2 e0), e0, ← g]
  rw [if_neg (fun hh => e0 ((step n (by omega) (by omega)).1 hh)), subUsize_ok (by omega), Res.bind_ok]
  by_cases e1 : n - 1 = L
  · rw [if_pos ((step (n-1) (by omega) (by omega)).2 e1), e1, ← g]
  rw [if_neg (fun hh => e1 ((step (n-1) (by omega) (by omega)).1 hh)), subUsize_ok (by omega), Res.bind_ok]
  by_cases e2 : n - 1 - 1 = L
  · rw [if_pos ((step (n-1-1) (by omega) (by omega)).2 e2), e2, ← g]
  rw [if_neg (fun hh => e2 ((step (n-1-1) (by omega) (by omega)).1 hh)), subUsize_ok (by omega), Res.bind_ok]
  rw [show n - 1 - 1 - 1 = L by omega, ← g]

theorem pushStrTruncate_ok (hN : N ≤ 255) (w : List Char) (hs : Holds s cs) :
    ∃ s' : ArrayString N, (pushStrTruncate (utf8 w) : M (ArrayString N) ε Unit) s = (.ok (), s') ∧
      Holds s' (cs ++ takeFit (N - byteLen cs) w) := by
  have hle := hs.le
  have := byteLen_takeFit_le (N - byteLen cs) w
  obtain ⟨s', e, hh⟩ := tryPushStr_ok hN (w := takeFit (N - byteLen cs) w) hs (by omega)
  refine ⟨s', ?_, hh⟩
  unfold pushStrTruncate
  simp [M.bind_apply, hs.len, subUsize_ok (show byteLen cs ≤ capacity N from hle), truncateStr_utf8,
    show capacity N - byteLen cs = N - byteLen cs from rfl, e]

/-! ## Constructors from one `str` -/

theorem tryFromStr_ok (hN : N ≤ 255) {w : List Char} (h : byteLen w ≤ N) :
    ∃ s' : ArrayString N, tryFromStr (utf8 w) = .ok s' ∧ Holds s' w := by
  obtain ⟨s', e, hh⟩ := tryPushStr_ok hN (w := w) (holds_new (N := N)) (by simpa using h)
  refine ⟨s', ?_, by simpa using hh⟩
  unfold tryFromStr M.onLocal
  rw [e]; rfl

theorem tryFromStr_err (hN : N ≤ 255) {w : List Char} (h : N < byteLen w) :
    (tryFromStr (utf8 w) : Res OutOfBounds (ArrayString N)) = .err {} := by
  have e := tryPushStr_err hN (w := w) (holds_new (N := N)) (by simpa using h)
  unfold tryFromStr M.onLocal
  rw [e]; rfl

theorem fromStrTruncate_ok (hN : N ≤ 255) (w : List Char) :
    ∃ s' : ArrayString N, (fromStrTruncate (utf8 w) : Res ε (ArrayString N)) = .ok s' ∧
      Holds s' (takeFit N w) := by
  obtain ⟨s', e, hh⟩ := pushStrTruncate_ok (ε := ε) hN w (holds_new (N := N))
  refine ⟨s', ?_, by simpa using hh⟩
  unfold fromStrTruncate M.onLocal
  rw [e]; rfl

/-! ## `truncate`, `pop`, `clear` -/

theorem Holds.shrink {p q : List Char} {n : UInt8} (hs : Holds s (p ++ q)) (hn : n.toNat = byteLen p) :
    Holds ({ s with size := n } : ArrayString N) p := by
  have hle := hs.le
  have ht := hs.take
  simp at hle ht
  refine ⟨hs.1, by simp [hn]; omega, ?_⟩
  simp only [hn]
  have := congrArg (List.take (byteLen p)) ht
  rwa [List.take_take, Nat.min_eq_left (by omega), List.take_left' (by simp)] at this

theorem intoLossy_toNat {n : Nat} (h : n ≤ 255) : (intoLossy n).toNat = n := by
  simp [intoLossy, UInt8.toNat_ofNat']; omega

theorem truncate_ok (hN : N ≤ 255) {p q : List Char} {n : Nat} (hs : Holds s (p ++ q))
    (h : min (byteLen p + byteLen q) n = byteLen p) :
    ∃ s' : ArrayString N, truncate n s = (.ok (), s') ∧ Holds s' p := by
  have hle := hs.le
  have hlen := hs.len
  simp only [byteLen_append] at hle hlen
  have hb : IsBoundary (p ++ q) (byteLen p) := ⟨p, q, rfl, rfl⟩
  unfold truncate
  simp only [M.bind_apply, M.self_apply, M.lift_apply, hlen, h, hs.isCharBoundary_true hb, M.setSelf_apply]
  refine ⟨_, rfl, hs.shrink (intoLossy_toNat (by omega))⟩

theorem truncate_ge {n : Nat} (hs : Holds s cs) (h : byteLen cs ≤ n) : truncate n s = (.ok (), s) := by
  have hlen := hs.len
  have hm : min (byteLen cs) n = byteLen cs := by omega
  unfold truncate
  simp only [M.bind_apply, M.self_apply, M.lift_apply, hlen, hm, hs.isCharBoundary_true (isBoundary_self cs),
    M.setSelf_apply]
  rw [← hlen]
  have : intoLossy s.len = s.size := by simp [intoLossy, ArrayString.len]
  rw [this]

theorem truncate_err {n : Nat} (hs : Holds s cs) (h : n < byteLen cs) (hb : ¬ IsBoundary cs n) :
    truncate n s = (.err {}, s) := by
  have hm : min (byteLen cs) n = n := by omega
  unfold truncate
  simp only [M.bind_apply, M.self_apply, M.lift_apply, hs.len, hm, hs.isCharBoundary_false hb]

theorem pop_nil (hs : Holds s []) : (pop : M (ArrayString N) ε (Option Char)) s = (.ok none, s) := by
  unfold pop
  have : Str.chars [] = [] := by simpa using chars_utf8 []
  simp [M.bind_apply, hs.asStr, this]

theorem pop_append {c : Char} (hs : Holds s (cs ++ [c])) :
    ∃ s' : ArrayString N, (pop : M (ArrayString N) ε (Option Char)) s = (.ok (some c), s') ∧ Holds s' cs := by
  have hlen := hs.len
  have hle := hs.le
  have h4 := utf8Size_le_four c
  simp at hlen hle
  have hl : (intoLossy (Str.lenUtf8 c)).toNat = c.utf8Size :=
    intoLossy_toNat (by unfold Str.lenUtf8; omega)
  have hsz : s.size.toNat = byteLen cs + c.utf8Size := hlen
  unfold pop
  simp only [M.bind_apply, M.self_apply, M.lift_apply, hs.asStr, chars_utf8, List.getLast?_append,
    List.getLast?_singleton, Option.some_or, subU8, hl, hsz]
  rw [if_pos (by omega)]
  simp only [M.setSelf_apply, M.pure_apply]
  refine ⟨_, rfl, hs.shrink ?_⟩
  rw [UInt8.toNat_sub_of_le _ _ (by rw [UInt8.le_iff_toNat_le]; omega)]
  omega

theorem clear_ok (hs : Holds s cs) :
    ∃ s' : ArrayString N, (clear : M (ArrayString N) ε Unit) s = (.ok (), s') ∧ Holds s' [] := by
  refine ⟨{ s with size := 0 }, rfl, ?_⟩
  exact Holds.shrink (p := []) (q := cs) hs rfl

/-! ## Insertion -/

theorem tryInsertStr_oob {i : Nat} {w : Bytes} (hs : Holds s cs) (h : byteLen cs < i) :
    tryInsertStr i w s = (.err .outOfBounds, s) := by
  unfold tryInsertStr
  simp [M.bind_apply, hs.len, isInsideBoundary_err (show ¬ i ≤ byteLen cs by omega)]

theorem tryInsertStr_eq {i : Nat} {w : Bytes} (hs : Holds s cs) (h : i ≤ byteLen cs) :
    tryInsertStr i w s = replaceRange (.range i i) w s := by
  unfold tryInsertStr
  simp [M.bind_apply, hs.len, isInsideBoundary_ok h]

theorem tryInsertStr_ok (hN : N ≤ 255) {p q w : List Char} (hs : Holds s (p ++ q))
    (h : byteLen p + byteLen w + byteLen q ≤ N) :
    ∃ s' : ArrayString N, tryInsertStr (byteLen p) (utf8 w) s = (.ok (), s') ∧ Holds s' (p ++ w ++ q) := by
  rw [tryInsertStr_eq hs (by simp)]
  exact replaceRange_ok hN (p := p) (m := []) (q := q) (by simpa using hs) rfl (by simp [rangeEnd, RangeB.range]) h

theorem tryInsertStr_nil {i : Nat} (hs : Holds s cs) (h : i ≤ byteLen cs) :
    tryInsertStr i [] s = (.ok (), s) := by
  rw [tryInsertStr_eq hs h]
  exact replaceRange_noop rfl

theorem tryInsertStr_full (hN : N ≤ 255) {i : Nat} {w : List Char} (hs : Holds s cs) (hi : IsBoundary cs i)
    (h : N < byteLen cs + byteLen w) :
    tryInsertStr i (utf8 w) s = (.err .outOfBounds, s) := by
  have hle := hs.le
  rw [tryInsertStr_eq hs (IsBoundary.le hi)]
  by_cases hw : byteLen w ≤ N
  · apply replaceRange_full hN hs
    · exact Nat.le_refl _
    · show i ≤ s.len; rw [hs.len]; exact (IsBoundary.le hi)
    · simpa using hw
    · exact hi
    · exact hi
    · show N < s.len + (utf8 w).length + i - i
      simp [hs.len]; omega
  · apply replaceRange_oob
    · rintro ⟨_, h2⟩; have := utf8_eq_nil.1 h2; subst this; simp at hw
    · rintro ⟨_, _, h3⟩; simp at h3; omega

theorem tryInsertStr_utf8 {i : Nat} {w : List Char} (hs : Holds s cs) (h : i ≤ byteLen cs)
    (hi : ¬ IsBoundary cs i) (hw : w ≠ []) (hwN : byteLen w ≤ N) :
    tryInsertStr i (utf8 w) s = (.err .utf8, s) := by
  rw [tryInsertStr_eq hs h]
  apply replaceRange_utf8 hs
  · rintro ⟨_, h2⟩; exact hw (utf8_eq_nil.1 h2)
  · exact Nat.le_refl _
  · show i ≤ s.len; rw [hs.len]; exact h
  · simpa using hwN
  · exact fun hh => hi hh.1

theorem tryInsertStr_big {i : Nat} {w : List Char} (hs : Holds s cs) (hwN : N < byteLen w) :
    tryInsertStr i (utf8 w) s = (.err .outOfBounds, s) := by
  by_cases h : i ≤ byteLen cs
  · rw [tryInsertStr_eq hs h]
    apply replaceRange_oob
    · rintro ⟨_, h2⟩; have := utf8_eq_nil.1 h2; subst this; simp at hwN
    · rintro ⟨_, _, h3⟩; simp at h3; omega
  · exact tryInsertStr_oob hs (by omega)

theorem insertStrTruncate_eq {i : Nat} {w : List Char} (hs : Holds s cs) :
    insertStrTruncate i (utf8 w) s = tryInsertStr i (utf8 (takeFit (N - byteLen cs) w)) s := by
  unfold insertStrTruncate
  simp [M.bind_apply, hs.len, subUsize_ok (show byteLen cs ≤ capacity N from hs.le), truncateStr_utf8,
    show capacity N - byteLen cs = N - byteLen cs from rfl]

/-! ## `remove` -/

theorem removeScan_boundary {i : Nat} (hs : Holds s cs) (h : IsBoundary cs i) : removeScan s i = .ok i := by
  rw [removeScan, hs.asStr]
  simp [(isCharBoundary_utf8 cs i).2 h]

theorem removeScan_step {i : Nat} (hs : Holds s cs) (h : ¬ IsBoundary cs i) (hi : i + 1 ≤ usizeMax) :
    removeScan s i = removeScan s (i + 1) := by
  rw [removeScan, hs.asStr]
  simp [mt (isCharBoundary_utf8 cs i).1 h, addUsize_ok hi]

theorem removeScan_ok {p q : List Char} {c : Char} (hs : Holds s (p ++ c :: q)) (hN : N ≤ 255) (k : Nat) :
    k < c.utf8Size →
    removeScan s (byteLen p + c.utf8Size - k) = .ok (byteLen p + c.utf8Size) := by
  have hM := usizeMax_ge
  have hle := hs.le
  simp at hle
  have hb : ∀ j, byteLen p < j → j ≤ byteLen p + c.utf8Size → IsBoundary (p ++ c :: q) j →
      j = byteLen p + c.utf8Size := by
    rintro j h1 h2 ⟨a, b, he, rfl⟩
    rcases List.append_eq_append_iff.1 he with ⟨x, rfl, hx⟩ | ⟨x, rfl, hx⟩
    · cases x with
      | nil => simp at h1
      | cons d x =>
        simp at hx h2
        rw [← hx.1] at h2 ⊢
        simp
        omega
    · simp at h1; omega
  induction k with
  | zero =>
    intro _
    exact removeScan_boundary hs ⟨p ++ [c], q, by simp, by simp⟩
  | succ k ih =>
    intro hk
    rw [removeScan_step hs (fun hh => by have := hb _ (by omega) (by omega) hh; omega) (by omega)]
    rw [show byteLen p + c.utf8Size - (k + 1) + 1 = byteLen p + c.utf8Size - k by omega]
    exact ih (by omega)

theorem remove_ok (hN : N ≤ 255) {p q : List Char} {c : Char} (hs : Holds s (p ++ c :: q)) :
    ∃ s' : ArrayString N, remove (byteLen p) s = (.ok c, s') ∧ Holds s' (p ++ q) := by
  have hM := usizeMax_ge
  have hle := hs.le
  have hlen := hs.len
  have hc := utf8Size_pos c
  simp at hle hlen
  have hb : IsBoundary (p ++ c :: q) (byteLen p) := ⟨p, c :: q, rfl, rfl⟩
  have hb2 : IsBoundary (p ++ c :: q) (byteLen p + c.utf8Size) := ⟨p ++ [c], q, by simp, by simp⟩
  obtain ⟨s', e, hh⟩ := replaceRange_ok hN (p := p) (m := [c]) (q := q) (w := [])
    (r := .range (byteLen p) (byteLen p + c.utf8Size)) (by simpa using hs) rfl (by simp [rangeEnd, RangeB.range])
    (by simp; omega)
  refine ⟨s', ?_, by simpa using hh⟩
  have hsat : saturatingAdd (byteLen p) 1 = byteLen p + 1 := by unfold saturatingAdd; omega
  have hscan := removeScan_ok hs hN (c.utf8Size - 1) (by omega)
  rw [show byteLen p + c.utf8Size - (c.utf8Size - 1) = byteLen p + 1 by omega] at hscan
  have hget : Str.get? (utf8 (p ++ c :: q)) (byteLen p) (byteLen p + c.utf8Size) = some (utf8 [c]) := by
    unfold Str.get?
    rw [if_pos ⟨by omega, (isCharBoundary_utf8 _ _).2 hb, (isCharBoundary_utf8 _ _).2 hb2⟩]
    rw [utf8_append, List.drop_left' (by simp), utf8_cons, List.take_left' (by simp)]
    simp
  unfold remove
  simp only [M.bind_apply, M.self_apply, M.try_apply, M.lift_apply, hsat, hlen,
    isInsideBoundary_ok (show byteLen p + 1 ≤ byteLen p + (c.utf8Size + byteLen q) by omega),
    hs.isCharBoundary_true hb, Res.mapErr_ok,
    if_neg (show ¬ (byteLen p = byteLen p + (c.utf8Size + byteLen q)) by omega),
    addUsize_ok (show byteLen p + 1 ≤ usizeMax by omega), hscan, hs.asStr, hget, chars_utf8, List.head?_cons,
    Str.lenUtf8, addUsize_ok (show byteLen p + c.utf8Size ≤ usizeMax by omega), M.pure_apply]
  rw [show ([] : Bytes) = utf8 [] from rfl, e]

theorem remove_oob (hN : N ≤ 255) {i : Nat} (hs : Holds s cs) (h : byteLen cs ≤ i) :
    remove i s = (.err .outOfBounds, s) := by
  have hM := usizeMax_ge
  have hle := hs.le
  unfold remove
  simp [M.bind_apply, hs.len, isInsideBoundary_err (show ¬ saturatingAdd i 1 ≤ byteLen cs by
    unfold saturatingAdd; omega)]

theorem remove_utf8 {i : Nat} (hs : Holds s cs) (h : i < byteLen cs) (hb : ¬ IsBoundary cs i) :
    remove i s = (.err .utf8, s) := by
  have hM := usizeMax_ge
  have hle := hs.le
  unfold remove
  simp [M.bind_apply, hs.len, isInsideBoundary_ok (show saturatingAdd i 1 ≤ byteLen cs by
    unfold saturatingAdd; omega), hs.isCharBoundary_false hb]

/-! ## `drain`, `split_off` -/

theorem drain_ok (hN : N ≤ 255) {p m q : List Char} {r : RangeB} (hs : Holds s (p ++ m ++ q))
    (h1 : rangeStart r = byteLen p) (h2 : rangeEnd r s.len = byteLen p + byteLen m) :
    ∃ (s' : ArrayString N) (d : Drain N), drain r s = (.ok d, s') ∧ Holds s' (p ++ q) ∧ Holds d.inner m := by
  have hle := hs.le
  have hlen := hs.len
  simp at hle hlen
  have hb : IsBoundary (p ++ m ++ q) (byteLen p) := ⟨p, m ++ q, by simp, rfl⟩
  have hb2 : IsBoundary (p ++ m ++ q) (byteLen p + byteLen m) := ⟨p ++ m, q, by simp, by simp⟩
  obtain ⟨s', e, hh⟩ := replaceRange_ok hN (p := p) (m := m) (q := q) (w := [])
    (r := .range (byteLen p) (byteLen p + byteLen m)) hs rfl (by simp [rangeEnd, RangeB.range])
    (by simp; omega)
  obtain ⟨d, ed, hd⟩ := tryFromStr_ok hN (w := m) (by omega)
  refine ⟨s', ⟨d⟩, ?_, by simpa using hh, hd⟩
  have hget : (Str.getUnchecked (utf8 (p ++ m ++ q)) (byteLen p) (byteLen p + byteLen m) : Res Error Bytes)
      = .ok (utf8 m) := by
    unfold Str.getUnchecked
    rw [if_pos ⟨by omega, by simp, (isCharBoundary_utf8 _ _).2 hb, (isCharBoundary_utf8 _ _).2 hb2⟩]
    rw [List.append_assoc, utf8_append, List.drop_left' (by simp), utf8_append, List.take_left' (by simp)]
  unfold drain
  rw [← hlen] at hle
  simp only [M.bind_apply, M.self_apply, M.try_apply, M.lift_apply, h1, h2,
    isInsideBoundary_ok (show byteLen p ≤ byteLen p + byteLen m by omega),
    isInsideBoundary_ok (show byteLen p + byteLen m ≤ s.len by omega),
    hs.isCharBoundary_true hb, hs.isCharBoundary_true hb2, hs.asStr, hget, ed, Res.mapErr_ok, M.pure_apply,
    debugAssert_true (show (decide (byteLen p ≤ byteLen p + byteLen m)
      && decide (byteLen p + byteLen m ≤ s.len)) = true by simp; omega),
    debugAssert_true ((isCharBoundary_utf8 _ _).2 hb), debugAssert_true ((isCharBoundary_utf8 _ _).2 hb2)]
  rw [show ([] : Bytes) = utf8 [] from rfl, e]

theorem drain_oob {r : RangeB} (h : ¬ (rangeStart r ≤ rangeEnd r s.len ∧ rangeEnd r s.len ≤ s.len)) :
    drain r s = (.err .outOfBounds, s) := by
  unfold drain
  by_cases h1 : rangeStart r ≤ rangeEnd r s.len
  · simp [M.bind_apply, isInsideBoundary_ok h1,
      isInsideBoundary_err (show ¬ rangeEnd r s.len ≤ s.len from fun h2 => h ⟨h1, h2⟩)]
  · simp [M.bind_apply, isInsideBoundary_err h1]

theorem drain_utf8 {r : RangeB} (hs : Holds s cs) (h1 : rangeStart r ≤ rangeEnd r s.len)
    (h2 : rangeEnd r s.len ≤ s.len)
    (h : ¬ (IsBoundary cs (rangeStart r) ∧ IsBoundary cs (rangeEnd r s.len))) :
    drain r s = (.err .utf8, s) := by
  unfold drain
  by_cases h3 : IsBoundary cs (rangeStart r)
  · simp [M.bind_apply, isInsideBoundary_ok h1, isInsideBoundary_ok h2, hs.isCharBoundary_true h3,
      hs.isCharBoundary_false (fun h4 => h ⟨h3, h4⟩)]
  · simp [M.bind_apply, isInsideBoundary_ok h1, isInsideBoundary_ok h2, hs.isCharBoundary_false h3]

theorem splitOff_ok (hN : N ≤ 255) {p q : List Char} (hs : Holds s (p ++ q)) :
    ∃ s' t : ArrayString N, splitOff (byteLen p) s = (.ok t, s') ∧ Holds s' p ∧ Holds t q := by
  obtain ⟨s', d, e, h1, h2⟩ := drain_ok hN (p := p) (m := q) (q := []) (r := .from_ (byteLen p))
    (by simpa using hs) rfl (by simp [rangeEnd, RangeB.from_, hs.len])
  refine ⟨s', d.inner, ?_, by simpa using h1, h2⟩
  unfold splitOff
  simp [M.bind_apply, e]

theorem splitOff_oob {i : Nat} (hs : Holds s cs) (h : byteLen cs < i) :
    splitOff i s = (.err .outOfBounds, s) := by
  unfold splitOff
  rw [M.bind_apply, drain_oob]
  simpa [rangeStart, rangeEnd, RangeB.from_, hs.len] using h

theorem splitOff_utf8 {i : Nat} (hs : Holds s cs) (h : i ≤ byteLen cs) (hb : ¬ IsBoundary cs i) :
    splitOff i s = (.err .utf8, s) := by
  unfold splitOff
  rw [M.bind_apply, drain_utf8 hs]
  · simp [rangeStart, rangeEnd, RangeB.from_, hs.len]; omega
  · simp [rangeEnd, RangeB.from_]
  · rintro ⟨h1, _⟩; exact hb h1

end Verif
