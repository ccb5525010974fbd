import Verif.Props.Sample
import Verif.Proofs.Range
import Verif.Proofs.Trim
import Verif.Proofs.Traits

/-!
# Properties of the `&mut self` methods of `ArrayString`

`Holds s cs` says that `s` holds exactly the text `cs`.  A call is `method args s`, giving the outcome
and the string afterwards; an outcome `(.err e, s)` therefore also says that `s` is unchanged.
Arguments of type `&str` are `utf8 w` for an arbitrary text `w`.
-/

namespace Verif
open Spec ArrayString

variable {N : Nat} [ValidCapacity N] {ε φ : Type}

/-- C05. -/
theorem C05_try_push_str (s : ArrayString N) (cs w : List Char) (hs : Holds s cs) :
    (byteLen cs + byteLen w ≤ N →
      ∃ s', tryPushStr (utf8 w) s = (.ok (), s') ∧ Holds s' (cs ++ w)) ∧
    (N < byteLen cs + byteLen w → tryPushStr (utf8 w) s = (.err {}, s)) :=
  ⟨fun h => tryPushStr_ok ValidCapacity.le hs h, fun h => tryPushStr_err ValidCapacity.le hs h⟩

example : Holds sample ['h', 'é', ' '] ∧ byteLen ['h', 'é', ' '] + byteLen ['𝄞'] ≤ 8 :=
  ⟨sample_holds, by decide⟩
example : 8 < byteLen ['h', 'é', ' '] + byteLen ['𝄞', '!'] := by decide

/-- C06. -/
theorem C06_push_str_truncate (s : ArrayString N) (cs w : List Char) (hs : Holds s cs) :
    ∃ s' pre, (pushStrTruncate (utf8 w) : M (ArrayString N) ε Unit) s = (.ok (), s') ∧
      Holds s' (cs ++ pre) ∧ LongestFit (N - byteLen cs) w pre := by
  obtain ⟨s', e, h⟩ := pushStrTruncate_ok (ε := ε) ValidCapacity.le w hs
  exact ⟨s', _, e, h, longestFit_takeFit _ _⟩

/-- The longest fitting prefix really cuts (`"€"` takes 3 bytes), and is unique. -/
example : LongestFit (8 - byteLen ['h', 'é', ' ']) ['x', '€', 'y'] ['x', '€'] :=
  ⟨['y'], rfl, by decide, by intro c r h; cases h; decide⟩
theorem C06_prefix_unique {n : Nat} {w a b : List Char} (ha : LongestFit n w a) (hb : LongestFit n w b) :
    a = b := LongestFit.unique ha hb

/-- C07. -/
theorem C07_try_push (s : ArrayString N) (cs : List Char) (c : Char) (hs : Holds s cs) :
    (byteLen cs + c.utf8Size ≤ N → ∃ s', tryPush c s = (.ok (), s') ∧ Holds s' (cs ++ [c])) ∧
    (N < byteLen cs + c.utf8Size → tryPush c s = (.err {}, s)) :=
  ⟨fun h => tryPush_ok ValidCapacity.le hs h, fun h => tryPush_err ValidCapacity.le hs h⟩

example : Holds sample ['h', 'é', ' '] ∧ byteLen ['h', 'é', ' '] + '𝄞'.utf8Size ≤ 8 :=
  ⟨sample_holds, by decide⟩
example : Holds fullSample ['é', '!'] ∧ 3 < byteLen ['é', '!'] + 'a'.utf8Size :=
  ⟨fullSample_holds, by decide⟩

/-- C16. -/
theorem C16_truncate (s : ArrayString N) (cs : List Char) (n : Nat) (hs : Holds s cs) :
    (byteLen cs ≤ n → truncate n s = (.ok (), s)) ∧
    (∀ p q, CutAt cs n p q → ∃ s', truncate n s = (.ok (), s') ∧ Holds s' p) ∧
    (n < byteLen cs → ¬ IsBoundary cs n → truncate n s = (.err {}, s)) := by
  refine ⟨truncate_ge hs, ?_, truncate_err hs⟩
  rintro p q ⟨rfl, rfl⟩
  exact truncate_ok ValidCapacity.le hs (by omega)

/-- C16: the three cases cover every size. -/
theorem C16_cases (cs : List Char) (n : Nat) :
    byteLen cs ≤ n ∨ (∃ p q, CutAt cs n p q) ∨ (n < byteLen cs ∧ ¬ IsBoundary cs n) := by
  by_cases h : byteLen cs ≤ n
  · exact .inl h
  · by_cases hb : IsBoundary cs n
    · exact .inr (.inl hb)
    · exact .inr (.inr ⟨by omega, hb⟩)

example : CutAt ['h', 'é', ' '] 3 ['h', 'é'] [' '] := by unfold CutAt; decide
example : 2 < byteLen ['h', 'é', ' '] ∧ ¬ IsBoundary ['h', 'é', ' '] 2 := by decide

omit [ValidCapacity N] in
/-- C17. -/
theorem C17_pop (s : ArrayString N) :
    (Holds s [] → (pop : M (ArrayString N) ε _) s = (.ok none, s)) ∧
    (∀ cs c, Holds s (cs ++ [c]) →
      ∃ s', (pop : M (ArrayString N) ε _) s = (.ok (some c), s') ∧ Holds s' cs) :=
  ⟨fun h => pop_nil h, fun _ _ h => pop_append h⟩

example : Holds sample (['h', 'é'] ++ [' ']) := sample_holds

/-- C18. -/
theorem C18_trim (s : ArrayString N) (cs out : List Char) (hs : Holds s cs) (ht : Trimmed cs out) :
    ∃ s', (trim : M (ArrayString N) ε Unit) s = (.ok (), s') ∧ Holds s' out :=
  trim_ok ValidCapacity.le hs ht

/-- C18: every text has exactly one trimmed form, and trimming it again changes nothing. -/
theorem C18_trimmed_exists_unique (cs : List Char) :
    ∃ out, Trimmed cs out ∧ (∀ out', Trimmed cs out' → out' = out) ∧ Trimmed out out :=
  ⟨trimText cs, trimmed_trimText cs, fun _ h => trimmed_dropWhile h, trimmed_self (trimmed_trimText cs)⟩

/-- C18: trimming twice is the same as trimming once. -/
theorem C18_trim_idempotent (s : ArrayString N) (cs : List Char) (hs : Holds s cs) :
    ∃ s' s'' out, (trim : M (ArrayString N) ε Unit) s = (.ok (), s') ∧
      (trim : M (ArrayString N) ε Unit) s' = (.ok (), s'') ∧ Holds s' out ∧ Holds s'' out := by
  have ht := trimmed_trimText cs
  obtain ⟨s', e, h⟩ := trim_ok (ε := ε) ValidCapacity.le hs ht
  obtain ⟨s'', e', h'⟩ := trim_ok (ε := ε) ValidCapacity.le h (trimmed_self ht)
  exact ⟨s', s'', _, e, e', h, h'⟩

example : Trimmed ['\t', 'h', ' ', 'é', '　'] ['h', ' ', 'é'] := by
  refine ⟨⟨['\t'], ['　'], rfl, by decide, by decide⟩, ?_, ?_⟩ <;> intro c h <;> cases h <;> decide

/-- C19. -/
theorem C19_remove (s : ArrayString N) (cs : List Char) (i : Nat) (hs : Holds s cs) :
    (byteLen cs ≤ i → remove i s = (.err .outOfBounds, s)) ∧
    (i < byteLen cs → ¬ IsBoundary cs i → remove i s = (.err .utf8, s)) ∧
    (∀ p c q, CutAt cs i p (c :: q) → ∃ s', remove i s = (.ok c, s') ∧ Holds s' (p ++ q)) := by
  refine ⟨remove_oob ValidCapacity.le hs, remove_utf8 hs, ?_⟩
  rintro p c q ⟨rfl, rfl⟩
  exact remove_ok ValidCapacity.le hs

/-- C19: the three cases cover every index. -/
theorem C19_cases (cs : List Char) (i : Nat) :
    byteLen cs ≤ i ∨ (i < byteLen cs ∧ ¬ IsBoundary cs i) ∨ ∃ p c q, CutAt cs i p (c :: q) := by
  by_cases h : byteLen cs ≤ i
  · exact .inl h
  · by_cases hb : IsBoundary cs i
    · obtain ⟨p, q, h1, h2⟩ := hb
      cases q with
      | nil => simp at h1; subst h1; omega
      | cons c q => exact .inr (.inr ⟨p, c, q, h1, h2⟩)
    · exact .inr (.inl ⟨by omega, hb⟩)

example : CutAt ['h', 'é', ' '] 1 ['h'] ('é' :: [' ']) := by unfold CutAt; decide

/-- C20: the predicate's state `q` is threaded through one call per character, in order (`keep`). -/
theorem C20_retain (s : ArrayString N) (cs out : List Char) (f : Pred φ) (q q' : φ) (hs : Holds s cs)
    (hk : keep f q cs = some (out, q')) :
    ∃ s', (retain f q : M (ArrayString N) ε φ) s = (.ok q', s') ∧ Holds s' out :=
  retain_ok ValidCapacity.le hs hk

/-- C20: in particular a predicate that records its arguments has seen every character once, in
order, and the text left is the sublist of accepted ones. -/
theorem C20_retain_calls (s : ArrayString N) (cs : List Char) (p : Char → Bool) (hs : Holds s cs) :
    ∃ s', (retain (fun (log : List Char) c => some (p c, log ++ [c])) [] : M (ArrayString N) ε _) s
        = (.ok cs, s') ∧ Holds s' (cs.filter p) := by
  have h : ∀ log, keep (fun (log : List Char) c => some (p c, log ++ [c])) log cs
      = some (cs.filter p, log ++ cs) := by
    clear hs
    induction cs with
    | nil => intro log; simp [keep]
    | cons c cs ih => intro log; simp [keep, ih, List.filter_cons]
  exact retain_ok ValidCapacity.le hs (h [])

/-- A predicate keeping every second character. -/
example : keep (fun (q : Bool) _ => some (q, !q)) true ['h', 'é', ' '] = some (['h', ' '], false) := rfl

/-- C21. -/
theorem C21_try_insert_str (s : ArrayString N) (cs w : List Char) (i : Nat) (hs : Holds s cs) :
    (byteLen cs < i → tryInsertStr i (utf8 w) s = (.err .outOfBounds, s)) ∧
    (i ≤ byteLen cs → w = [] → tryInsertStr i (utf8 w) s = (.ok (), s)) ∧
    (i ≤ byteLen cs → w ≠ [] → ¬ IsBoundary cs i →
      tryInsertStr i (utf8 w) s = (.err (if byteLen w ≤ N then .utf8 else .outOfBounds), s)) ∧
    (∀ p q, CutAt cs i p q → N < byteLen cs + byteLen w →
      tryInsertStr i (utf8 w) s = (.err .outOfBounds, s)) ∧
    (∀ p q, CutAt cs i p q → byteLen cs + byteLen w ≤ N →
      ∃ s', tryInsertStr i (utf8 w) s = (.ok (), s') ∧ Holds s' (p ++ w ++ q)) := by
  refine ⟨tryInsertStr_oob hs, ?_, ?_, ?_, ?_⟩
  · rintro h rfl; exact tryInsertStr_nil hs h
  · intro h hw hb
    split
    · exact tryInsertStr_utf8 hs h hb hw ‹_›
    · exact tryInsertStr_big hs (by omega)
  · intro p q hc h; exact tryInsertStr_full ValidCapacity.le hs ⟨p, q, hc⟩ h
  · rintro p q ⟨rfl, rfl⟩ h
    exact tryInsertStr_ok ValidCapacity.le hs (by simp at h; omega)

/-- C21 for one character. -/
theorem C21_try_insert (s : ArrayString N) (cs : List Char) (c : Char) (i : Nat) (hs : Holds s cs) :
    (byteLen cs < i → tryInsert i c s = (.err .outOfBounds, s)) ∧
    (i ≤ byteLen cs → ¬ IsBoundary cs i →
      tryInsert i c s = (.err (if c.utf8Size ≤ N then .utf8 else .outOfBounds), s)) ∧
    (∀ p q, CutAt cs i p q → N < byteLen cs + c.utf8Size → tryInsert i c s = (.err .outOfBounds, s)) ∧
    (∀ p q, CutAt cs i p q → byteLen cs + c.utf8Size ≤ N →
      ∃ s', tryInsert i c s = (.ok (), s') ∧ Holds s' (p ++ [c] ++ q)) := by
  obtain ⟨h1, -, h3, h4, h5⟩ := C21_try_insert_str s cs [c] i hs
  unfold tryInsert
  rw [encodeUtf8_eq]
  have hl : byteLen [c] = c.utf8Size := by simp
  rw [hl] at h3
  exact ⟨h1, fun h hb => h3 h (by simp) hb, fun p q hc h => h4 p q hc (by simpa using h),
    fun p q hc h => h5 p q hc (by simpa using h)⟩

example : CutAt ['h', 'é', ' '] 3 ['h', 'é'] [' '] ∧ byteLen ['h', 'é', ' '] + byteLen ['€', 'a'] ≤ 8 :=
  ⟨by unfold CutAt; decide, by decide⟩
example : 2 ≤ byteLen ['h', 'é', ' '] ∧ ¬ IsBoundary ['h', 'é', ' '] 2 := by decide

/-- C22. -/
theorem C22_insert_str_truncate (s : ArrayString N) (cs w pre : List Char) (i : Nat) (hs : Holds s cs)
    (hp : LongestFit (N - byteLen cs) w pre) :
    (byteLen cs < i → insertStrTruncate i (utf8 w) s = (.err .outOfBounds, s)) ∧
    (∀ p q, CutAt cs i p q →
      ∃ s', insertStrTruncate i (utf8 w) s = (.ok (), s') ∧ Holds s' (p ++ pre ++ q)) ∧
    (i ≤ byteLen cs → ¬ IsBoundary cs i → pre ≠ [] → insertStrTruncate i (utf8 w) s = (.err .utf8, s)) ∧
    (i ≤ byteLen cs → ¬ IsBoundary cs i → pre = [] → insertStrTruncate i (utf8 w) s = (.ok (), s)) := by
  rw [insertStrTruncate_eq hs, ← longestFit_iff.1 hp]
  have hle := hs.le
  have hfit : byteLen pre ≤ N - byteLen cs := by obtain ⟨_, _, h, _⟩ := hp; exact h
  obtain ⟨h1, h2, h3, h4, h5⟩ := C21_try_insert_str s cs pre i hs
  refine ⟨h1, fun p q hc => h5 p q hc (by omega), fun h hb hne => ?_, fun h _ hnil => h2 h hnil⟩
  rw [h3 h hne hb, if_pos (by omega)]

example : LongestFit (8 - byteLen ['h', 'é', ' ']) ['a', '𝄞'] ['a'] :=
  ⟨['𝄞'], rfl, by decide, by intro c r h; cases h; decide⟩

/-- C23. -/
theorem C23_split_off (s : ArrayString N) (cs : List Char) (i : Nat) (hs : Holds s cs) :
    (byteLen cs < i → splitOff i s = (.err .outOfBounds, s)) ∧
    (i ≤ byteLen cs → ¬ IsBoundary cs i → splitOff i s = (.err .utf8, s)) ∧
    (∀ p q, CutAt cs i p q → ∃ s' t, splitOff i s = (.ok t, s') ∧ Holds s' p ∧ Holds t q) := by
  refine ⟨splitOff_oob hs, splitOff_utf8 hs, ?_⟩
  rintro p q ⟨rfl, rfl⟩
  exact splitOff_ok ValidCapacity.le hs

example : CutAt ['h', 'é', ' '] 1 ['h'] ['é', ' '] := by unfold CutAt; decide

/-- C24, with C27: the bounds are resolved in unbounded arithmetic (`startOf`, `endOf`). -/
theorem C24_drain (s : ArrayString N) (cs : List Char) (r : RangeB) (hs : Holds s cs) :
    (¬ RangeInside r (byteLen cs) → drain r s = (.err .outOfBounds, s)) ∧
    (RangeInside r (byteLen cs) → ¬ RangeBoundary r cs → drain r s = (.err .utf8, s)) ∧
    (∀ p m q, cs = p ++ m ++ q → byteLen p = startOf r → byteLen (p ++ m) = endOf r (byteLen cs) →
      ∃ s' d, drain r s = (.ok d, s') ∧ Holds s' (p ++ q) ∧ (d.asStr : Res ε _) = .ok (utf8 m) ∧
        Holds d.inner m) := by
  have hle := hs.le
  have hN := ValidCapacity.le (N := N)
  have hlen := hs.len
  have hin := range_inside (r := r) (len := byteLen cs) (by omega)
  refine ⟨fun h => ?_, fun h hb => ?_, fun p m q hc hp hm => ?_⟩
  · apply drain_oob; rw [hlen, hin]; exact h
  · obtain ⟨e1, e2⟩ := range_inside_eq (by omega) h
    obtain ⟨i1, i2⟩ := hin.2 h
    apply drain_utf8 hs
    · rw [hlen]; exact i1
    · rw [hlen]; exact i2
    · rw [hlen, e1, e2]; exact hb
  · have hi : RangeInside r (byteLen cs) := by
      rw [hc] at hm ⊢; unfold RangeInside; simp at hm ⊢; omega
    obtain ⟨e1, e2⟩ := range_inside_eq (by omega) hi
    subst hc
    obtain ⟨s', d, e, h1, h2⟩ := drain_ok hN (r := r) hs (by rw [e1, hp]) (by rw [hlen, e2, ← hm]; simp)
    exact ⟨s', d, e, h1, h2.asStr, h2⟩

/-- C24: the three cases cover every range. -/
theorem C24_cases (cs : List Char) (r : RangeB) :
    ¬ RangeInside r (byteLen cs) ∨ (RangeInside r (byteLen cs) ∧ ¬ RangeBoundary r cs) ∨
    ∃ p m q, cs = p ++ m ++ q ∧ byteLen p = startOf r ∧ byteLen (p ++ m) = endOf r (byteLen cs) := by
  by_cases h : RangeInside r (byteLen cs)
  · by_cases hb : RangeBoundary r cs
    · obtain ⟨p, m, q, h1, h2, h3⟩ := range_cut h hb
      exact .inr (.inr ⟨p, m, q, h1, h2, by simpa using h3⟩)
    · exact .inr (.inl ⟨h, hb⟩)
  · exact .inl h

example : startOf (.inclusive 1 2) = byteLen ['h'] ∧
    byteLen (['h'] ++ ['é']) = endOf (.inclusive 1 2) (byteLen ['h', 'é', ' ']) := by decide
example : ¬ RangeInside (.inclusive 0 usizeMax) 4 := by
  have := usizeMax_ge
  unfold RangeInside startOf endOf RangeB.inclusive; simp only; omega

/-- C26, with C27.  The first case is the early return of the code: it compares the two ends after
saturating them at `usize::MAX`. -/
theorem C26_replace_range (s : ArrayString N) (cs w : List Char) (r : RangeB) (hr : RangeOk r)
    (hs : Holds s cs) :
    (min (startOf r) usizeMax = min (endOf r (byteLen cs)) usizeMax → w = [] →
      replaceRange r (utf8 w) s = (.ok (), s)) ∧
    (¬ (min (startOf r) usizeMax = min (endOf r (byteLen cs)) usizeMax ∧ w = []) →
      (¬ (RangeInside r (byteLen cs) ∧ byteLen w ≤ N) → replaceRange r (utf8 w) s = (.err .outOfBounds, s)) ∧
      (RangeInside r (byteLen cs) → byteLen w ≤ N → ¬ RangeBoundary r cs →
        replaceRange r (utf8 w) s = (.err .utf8, s))) ∧
    (∀ p m q, cs = p ++ m ++ q → byteLen p = startOf r → byteLen (p ++ m) = endOf r (byteLen cs) →
      (byteLen (p ++ w ++ q) ≤ N →
        ∃ s', replaceRange r (utf8 w) s = (.ok (), s') ∧ Holds s' (p ++ w ++ q)) ∧
      (N < byteLen (p ++ w ++ q) → replaceRange r (utf8 w) s = (.err .outOfBounds, s))) := by
  have hle := hs.le
  have hN := ValidCapacity.le (N := N)
  have hlen := hs.len
  have hin := range_inside (r := r) (len := byteLen cs) (by omega)
  have hno := range_noop (r := r) (len := byteLen cs) (by omega) hr
  refine ⟨fun h hw => ?_, fun hne => ⟨fun h => ?_, fun h hwN hb => ?_⟩, fun p m q hc hp hm => ?_⟩
  · subst hw; exact replaceRange_noop (by rw [hlen, hno]; exact h)
  · apply replaceRange_oob
    · rw [hlen, hno, utf8_eq_nil]; exact hne
    · rw [hlen, length_utf8, ← and_assoc, hin]; exact h
  · obtain ⟨e1, e2⟩ := range_inside_eq (by omega) h
    obtain ⟨i1, i2⟩ := hin.2 h
    apply replaceRange_utf8 hs
    · rw [hlen, hno, utf8_eq_nil]; exact hne
    · rw [hlen]; exact i1
    · rw [hlen]; exact i2
    · simpa using hwN
    · rw [hlen, e1, e2]; exact hb
  · have hi : RangeInside r (byteLen cs) := by
      rw [hc] at hm ⊢; unfold RangeInside; simp at hm ⊢; omega
    obtain ⟨e1, e2⟩ := range_inside_eq (by omega) hi
    subst hc
    have he : rangeEnd r s.len = byteLen p + byteLen m := by rw [hlen, e2, ← hm]; simp
    constructor
    · intro hfit
      exact replaceRange_ok hN (r := r) hs (by rw [e1, hp]) he (by simp at hfit; omega)
    · intro hbig
      have hb1 : IsBoundary (p ++ m ++ q) (rangeStart r) := ⟨p, m ++ q, by simp, by rw [e1, hp]⟩
      have hb2 : IsBoundary (p ++ m ++ q) (rangeEnd r s.len) := ⟨p ++ m, q, rfl, by rw [he]; simp⟩
      simp at hbig hlen
      by_cases hw : byteLen w ≤ N
      · apply replaceRange_full hN hs
        · rw [he, e1]; omega
        · rw [he]; omega
        · simpa using hw
        · exact hb1
        · exact hb2
        · rw [he, e1, length_utf8]; omega
      · apply replaceRange_oob
        · rintro ⟨_, h⟩; have := utf8_eq_nil.1 h; subst this; simp at hw
        · simp; omega

/-- C26: the five cases cover every range and text. -/
theorem C26_cases (N : Nat) (cs w : List Char) (r : RangeB) :
    (min (startOf r) usizeMax = min (endOf r (byteLen cs)) usizeMax ∧ w = []) ∨
    ¬ (RangeInside r (byteLen cs) ∧ byteLen w ≤ N) ∨
    (RangeInside r (byteLen cs) ∧ byteLen w ≤ N ∧ ¬ RangeBoundary r cs) ∨
    ∃ p m q, cs = p ++ m ++ q ∧ byteLen p = startOf r ∧ byteLen (p ++ m) = endOf r (byteLen cs) ∧
      (byteLen (p ++ w ++ q) ≤ N ∨ N < byteLen (p ++ w ++ q)) := by
  rcases C24_cases cs r with h | ⟨h, hb⟩ | ⟨p, m, q, h1, h2, h3⟩
  · exact .inr (.inl fun h' => h h'.1)
  · by_cases hw : byteLen w ≤ N
    · exact .inr (.inr (.inl ⟨h, hw, hb⟩))
    · exact .inr (.inl fun h' => hw h'.2)
  · exact .inr (.inr (.inr ⟨p, m, q, h1, h2, h3, by omega⟩))

example : RangeOk (.range 1 3) ∧ byteLen ['h'] = startOf (.range 1 3) ∧
    byteLen (['h'] ++ ['é']) = endOf (.range 1 3) 4 := by
  have := usizeMax_ge
  refine ⟨?_, rfl, rfl⟩
  unfold RangeOk BoundOk RangeB.range; simp only; omega

/-- C27: for every pair of bounds, resolving in saturating arithmetic accepts exactly the ranges that
unbounded arithmetic puts inside the text, and then gives the same two ends. -/
theorem C27_bounds (r : RangeB) (cs : List Char) (s : ArrayString N) (hs : Holds s cs) :
    ((rangeStart r ≤ rangeEnd r s.len ∧ rangeEnd r s.len ≤ s.len) ↔ RangeInside r (byteLen cs)) ∧
    (RangeInside r (byteLen cs) → rangeStart r = startOf r ∧ rangeEnd r s.len = endOf r (byteLen cs)) := by
  have hle := hs.le
  have hN := ValidCapacity.le (N := N)
  rw [hs.len]
  exact ⟨range_inside (by omega), range_inside_eq (by omega)⟩

/-- C27: inclusive ends and excluded starts at `usize::MAX` are rejected, not wrapped to 0. -/
theorem C27_max (s : ArrayString N) (cs w : List Char) (hs : Holds s cs) (hw : w ≠ []) (a : Nat) :
    drain ⟨.included a, .included usizeMax⟩ s = (.err .outOfBounds, s) ∧
    drain ⟨.excluded usizeMax, .unbounded⟩ s = (.err .outOfBounds, s) ∧
    replaceRange ⟨.included a, .included usizeMax⟩ (utf8 w) s = (.err .outOfBounds, s) ∧
    replaceRange ⟨.excluded usizeMax, .unbounded⟩ (utf8 w) s = (.err .outOfBounds, s) := by
  have hle := hs.le
  have hN := ValidCapacity.le (N := N)
  have hm := usizeMax_ge
  have hl := hs.len
  have hw' : utf8 w ≠ [] := fun h => hw (utf8_eq_nil.1 h)
  refine ⟨drain_oob ?_, drain_oob ?_, replaceRange_oob ?_ ?_, replaceRange_oob ?_ ?_⟩ <;>
    simp [rangeStart, rangeEnd, saturatingAdd, hw'] <;> omega

/-- C27: with an empty text, `replace_range` rejects an inclusive end at `usize::MAX` too, except that it
takes `usize::MAX..=usize::MAX` for an empty range (the saturated ends are equal) and changes nothing. -/
theorem C27_max_empty (s : ArrayString N) (cs : List Char) (hs : Holds s cs) (a : Nat) :
    (a ≠ usizeMax → replaceRange ⟨.included a, .included usizeMax⟩ [] s = (.err .outOfBounds, s)) ∧
    replaceRange ⟨.included usizeMax, .included usizeMax⟩ [] s = (.ok (), s) ∧
    replaceRange ⟨.excluded usizeMax, .unbounded⟩ [] s = (.err .outOfBounds, s) := by
  have hle := hs.le
  have hN := ValidCapacity.le (N := N)
  have hm := usizeMax_ge
  have hl := hs.len
  refine ⟨fun ha => replaceRange_oob ?_ ?_, replaceRange_noop ?_, replaceRange_oob ?_ ?_⟩ <;>
    simp [rangeStart, rangeEnd, saturatingAdd] <;> omega

omit [ValidCapacity N] in
/-- C44. -/
theorem C44_len (s : ArrayString N) (cs : List Char) (hs : Holds s cs) :
    s.len = byteLen cs ∧ (s.isEmpty : Res ε Bool) = .ok cs.isEmpty ∧ (s.asStr : Res ε _) = .ok (utf8 cs) ∧
    s.len ≤ capacity N ∧ capacity N = N ∧
    (∃ s', (clear : M (ArrayString N) ε Unit) s = (.ok (), s') ∧ Holds s' []) := by
  refine ⟨hs.len, ?_, hs.asStr, hs.2.1, rfl, clear_ok hs⟩
  unfold isEmpty
  simp [hs.asRefStr, isEmpty_utf8]

omit [ValidCapacity N] in
/-- C44. -/
theorem C44_new : Holds (new : ArrayString N) [] ∧ Holds (ArrayString.default : ArrayString N) [] :=
  ⟨holds_new, holds_new⟩

/-- C45: characterisation of the calls that succeed at an index inside a character, against the
documentation. -/
theorem C45_insert_inside_char (s : ArrayString N) (cs w pre : List Char) (i : Nat) (hs : Holds s cs)
    (hi : i ≤ byteLen cs) (hb : ¬ IsBoundary cs i) (hp : LongestFit (N - byteLen cs) w pre) :
    ((tryInsertStr i (utf8 w) s).1 = .ok () ↔ w = []) ∧
    ((insertStrTruncate i (utf8 w) s).1 = .ok () ↔ pre = []) := by
  obtain ⟨-, h2, h3, -⟩ := C21_try_insert_str s cs w i hs
  obtain ⟨-, -, h4, h5⟩ := C22_insert_str_truncate s cs w pre i hs hp
  constructor
  · constructor
    · intro h; apply Classical.byContradiction; intro hw; rw [h3 hi hw hb] at h; simp at h
    · intro h; rw [h2 hi h]
  · constructor
    · intro h; apply Classical.byContradiction; intro hw; rw [h4 hi hb hw] at h; simp at h
    · intro h; rw [h5 hi hb h]

omit [ValidCapacity N] in
/-- C45: `replace_range` accepts any range with equal ends and an empty text, wherever it lies. -/
theorem C45_replace_empty (s : ArrayString N) (a : Nat) :
    replaceRange (.range a a) [] s = (.ok (), s) := replaceRange_noop rfl

/-- C45, refutation: the documented "returns Utf8 if idx is not a char position" is false. -/
theorem C45_refuted :
    ¬ (∀ (s : ArrayString 8) cs w i, Holds s cs → i ≤ byteLen cs → ¬ IsBoundary cs i →
      (tryInsertStr i (utf8 w) s).1 = .err .utf8) ∧
    ¬ (∀ (s : ArrayString 3) cs w i, Holds s cs → i ≤ byteLen cs → ¬ IsBoundary cs i → w ≠ [] →
      (insertStrTruncate i (utf8 w) s).1 = .err .utf8) ∧
    ¬ (∀ (s : ArrayString 8) cs a, Holds s cs → byteLen cs < a →
      (replaceRange (.range a a) [] s).1 = .err .outOfBounds) := by
  refine ⟨fun h => ?_, fun h => ?_, fun h => ?_⟩
  · have := h sample _ [] 2 sample_holds (by decide) (by decide)
    revert this; decide
  · have := h fullSample _ ['a'] 1 fullSample_holds (by decide) (by decide) (by decide)
    revert this; decide
  · have := h sample _ 100 sample_holds (by decide)
    rw [C45_replace_empty] at this; simp at this

/-- C46: `pop` undoes a successful `try_push`. -/
theorem C46_push_pop (s : ArrayString N) (cs : List Char) (c : Char) (hs : Holds s cs)
    (h : byteLen cs + c.utf8Size ≤ N) :
    ∃ s' s'', tryPush c s = (.ok (), s') ∧ (pop : M (ArrayString N) ε _) s' = (.ok (some c), s'') ∧
      Holds s'' cs := by
  obtain ⟨s', e, h'⟩ := tryPush_ok ValidCapacity.le hs h
  obtain ⟨s'', e', h''⟩ := pop_append (ε := ε) h'
  exact ⟨s', s'', e, e', h''⟩

/-- C46: whatever successful `try_push`, the following `pop` undoes it (no side condition). -/
theorem C46_push_pop' (s s' : ArrayString N) (cs : List Char) (c : Char) (hs : Holds s cs)
    (h : tryPush c s = (.ok (), s')) :
    ∃ s'', (pop : M (ArrayString N) ε _) s' = (.ok (some c), s'') ∧ Holds s'' cs := by
  by_cases hf : byteLen cs + c.utf8Size ≤ N
  · obtain ⟨t, u, e, e', hu⟩ := C46_push_pop (ε := ε) s cs c hs hf
    rw [h] at e; cases e
    exact ⟨u, e', hu⟩
  · rw [tryPush_err ValidCapacity.le hs (by omega)] at h; cases h

/-- C46: `remove` undoes a successful `try_insert`. -/
theorem C46_insert_remove (s s' : ArrayString N) (cs : List Char) (c : Char) (i : Nat) (hs : Holds s cs)
    (h : tryInsert i c s = (.ok (), s')) :
    ∃ s'', remove i s' = (.ok c, s'') ∧ Holds s'' cs := by
  obtain ⟨h1, h2, h3, h4⟩ := C21_try_insert s cs c i hs
  by_cases hi : byteLen cs < i
  · rw [h1 hi] at h; cases h
  · by_cases hb : IsBoundary cs i
    · obtain ⟨p, q, hc⟩ := hb
      by_cases hf : byteLen cs + c.utf8Size ≤ N
      · obtain ⟨t, e, ht⟩ := h4 p q hc hf
        rw [h] at e; cases e
        obtain ⟨rfl, rfl⟩ := hc
        exact remove_ok ValidCapacity.le (by simpa using ht)
      · rw [h3 p q hc (by omega)] at h; cases h
    · rw [h2 (by omega) hb] at h; cases h

/-- C46: appending what `split_off` returned restores the text. -/
theorem C46_split_append (s s' t : ArrayString N) (cs : List Char) (i : Nat) (hs : Holds s cs)
    (h : splitOff i s = (.ok t, s')) :
    ∃ b s'', (t.asStr : Res ε _) = .ok b ∧ tryPushStr b s' = (.ok (), s'') ∧ Holds s'' cs := by
  obtain ⟨h1, h2, h3⟩ := C23_split_off s cs i hs
  by_cases hi : byteLen cs < i
  · rw [h1 hi] at h; cases h
  · by_cases hb : IsBoundary cs i
    · obtain ⟨p, q, hc⟩ := hb
      obtain ⟨u, v, e, hu, hv⟩ := h3 p q hc
      rw [h] at e; cases e
      obtain ⟨rfl, rfl⟩ := hc
      have hle := hs.le
      obtain ⟨s'', e2, h''⟩ := tryPushStr_ok ValidCapacity.le (w := q) hu (by simpa using hle)
      exact ⟨utf8 q, s'', hv.asStr, e2, h''⟩
    · rw [h2 (by omega) hb] at h; cases h

/-- C46: re-inserting a drained range at its start restores the text. -/
theorem C46_drain_insert (s s' : ArrayString N) (d : Drain N) (cs : List Char) (r : RangeB) (hs : Holds s cs)
    (h : drain r s = (.ok d, s')) :
    ∃ b s'', (d.asStr : Res ε _) = .ok b ∧ tryInsertStr (startOf r) b s' = (.ok (), s'') ∧ Holds s'' cs := by
  obtain ⟨h1, h2, h3⟩ := C24_drain (ε := ε) s cs r hs
  rcases C24_cases cs r with hi | ⟨hi, hb⟩ | ⟨p, m, q, hc, hp, hm⟩
  · rw [h1 hi] at h; cases h
  · rw [h2 hi hb] at h; cases h
  · obtain ⟨u, v, e, hu, hv, _⟩ := h3 p m q hc hp hm
    rw [h] at e; cases e
    subst hc
    have hle := hs.le
    obtain ⟨s'', e2, h''⟩ := tryInsertStr_ok ValidCapacity.le (w := m) hu (by simp at hle; omega)
    exact ⟨utf8 m, s'', hv, by rw [← hp]; exact e2, h''⟩

/-- The premises of the C46 theorems are met: these calls succeed on the sample. -/
example : (∃ s', tryPush '𝄞' sample = (.ok (), s')) ∧ (∃ s', tryInsert 3 '€' sample = (.ok (), s')) ∧
    (∃ t s', splitOff 1 sample = (.ok t, s')) ∧ (∃ d s', drain (.range 1 3) sample = (.ok d, s')) := by
  obtain ⟨s1, e1, -⟩ := (C07_try_push sample _ '𝄞' sample_holds).1 (by decide)
  obtain ⟨s2, e2, -⟩ := (C21_try_insert sample _ '€' 3 sample_holds).2.2.2 ['h', 'é'] [' ']
    (by unfold CutAt; decide) (by decide)
  obtain ⟨s3, t3, e3, -⟩ := (C23_split_off sample _ 1 sample_holds).2.2 ['h'] ['é', ' '] (by unfold CutAt; decide)
  obtain ⟨s4, t4, e4, -⟩ := (C24_drain (ε := Unit) sample _ (.range 1 3) sample_holds).2.2 ['h'] ['é'] [' ']
    rfl rfl rfl
  exact ⟨⟨s1, e1⟩, ⟨s2, e2⟩, ⟨t3, s3, e3⟩, ⟨t4, s4, e4⟩⟩

omit [ValidCapacity N] in
/-- C49: for every text and size, the unrolled search ends at the longest fitting prefix; it never
underflows (`panic`) and never slices inside a character (`ub`). -/
theorem C49_truncate_str (w : List Char) (n : Nat) :
    ∃ pre, (truncateStr (utf8 w) n : Res ε Bytes) = .ok (utf8 pre) ∧ LongestFit n w pre :=
  ⟨takeFit n w, truncateStr_utf8 w n, longestFit_takeFit n w⟩

example : LongestFit 5 ['é', '𝄞'] ['é'] :=
  ⟨['𝄞'], rfl, by decide, by intro c r h; cases h; decide⟩

end Verif
