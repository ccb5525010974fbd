import Verif.Proofs.Ops
import Verif.Spec.Trim

/-! # `trim` -/

namespace Verif
open Spec ArrayString

theorem isWhitespace_iff (c : Char) : Str.isWhitespace c = true ↔ IsWhite c := by
  unfold Str.isWhitespace IsWhite whiteSpace
  simp
  omega

theorem isWhitespace_eq (c : Char) : Str.isWhitespace c = decide (IsWhite c) := by
  rw [Bool.eq_iff_iff, isWhitespace_iff]; simp

theorem trimStart_skip {pre : List Char} (h : ∀ c ∈ pre, IsWhite c) (n : Nat) (L : List (Nat × Char)) :
    ∀ off, trimStart n (indexed off pre ++ L) = trimStart n L := by
  induction pre with
  | nil => intro; rfl
  | cons c pre ih =>
    intro off
    simp [indexed, trimStart, (isWhitespace_iff c).2 (h c (by simp)), ih (fun d hd => h d (by simp [hd]))]

theorem trimEnd_skip {post : List Char} (h : ∀ c ∈ post, IsWhite c) (start : Nat) :
    ∀ (L : List (Nat × Char)) (off : Nat), start ≤ off →
    trimEnd start (off + byteLen post) ((indexed off post).reverse ++ L) = trimEnd start off L := by
  induction post with
  | nil => intro L off _; simp [indexed]
  | cons c post ih =>
    intro L off hs
    have := ih (fun d hd => h d (by simp [hd])) ((off, c) :: L) (off + c.utf8Size) (by omega)
    simp only [indexed, List.reverse_cons, List.append_assoc, byteLen_cons, List.cons_append, List.nil_append]
    rw [← Nat.add_assoc, this]
    simp [trimEnd, (isWhitespace_iff c).2 (h c (by simp)), Nat.not_lt.2 hs]

/-! ## The specification: `Trimmed` determines its result, and `trimText` computes it -/

theorem dropWhile_split (p : Char → Bool) (cs : List Char) :
    ∃ pre, cs = pre ++ cs.dropWhile p ∧ (∀ c ∈ pre, p c = true) := by
  refine ⟨cs.takeWhile p, (List.takeWhile_append_dropWhile).symm, ?_⟩
  intro c hc
  have := List.all_takeWhile (p := p) (l := cs)
  exact List.all_eq_true.1 this c hc

theorem head_dropWhile (p : Char → Bool) (cs : List Char) (c : Char)
    (h : (cs.dropWhile p).head? = some c) : p c = false := by
  induction cs with
  | nil => simp at h
  | cons d cs ih =>
    rw [List.dropWhile_cons] at h
    split at h
    · exact ih h
    · simp at h; subst h; simpa using ‹¬ p d = true›

theorem dropWhile_nil {p : Char → Bool} {l : List Char} (h : ∀ c ∈ l, p c = true) : l.dropWhile p = [] := by
  induction l with
  | nil => rfl
  | cons c l ih => rw [List.dropWhile_cons_of_pos (h c (by simp)), ih (fun d hd => h d (by simp [hd]))]

theorem exists_snoc {l : List Char} (h : l ≠ []) : ∃ init d, l = init ++ [d] :=
  ⟨l.dropLast, l.getLast h, (List.dropLast_concat_getLast h).symm⟩

theorem trimmed_trimText (cs : List Char) : Trimmed cs (trimText cs) := by
  unfold trimText
  generalize hp : (fun c => decide (IsWhite c)) = p
  have hp' : ∀ c, p c = true ↔ IsWhite c := by intro c; rw [← hp]; simp
  obtain ⟨pre, h1, h2⟩ := dropWhile_split p cs
  obtain ⟨post, h3, h4⟩ := dropWhile_split p (cs.dropWhile p).reverse
  have h3' := congrArg List.reverse h3
  simp only [List.reverse_reverse, List.reverse_append] at h3'
  refine ⟨⟨pre, post.reverse, ?_, fun c hc => (hp' c).1 (h2 c hc),
    fun c hc => (hp' c).1 (h4 c (by simpa using hc))⟩, ?_, ?_⟩
  · rw [List.append_assoc, ← h3', ← h1]
  · intro c hc
    have h5 : (cs.dropWhile p).head? = some c := by
      rw [h3']
      cases hh : ((cs.dropWhile p).reverse.dropWhile p).reverse with
      | nil => rw [hh] at hc; simp at hc
      | cons d t => rw [hh] at hc; simpa using hc
    rw [← hp' c, head_dropWhile p cs c h5]; simp
  · intro c hc
    rw [List.getLast?_reverse] at hc
    rw [← hp' c, head_dropWhile p _ c hc]; simp

theorem Trimmed.nil {cs : List Char} (h : Trimmed cs []) : ∀ c ∈ cs, IsWhite c := by
  obtain ⟨⟨pre, post, rfl, h1, h2⟩, _⟩ := h
  intro c hc
  simp at hc
  rcases hc with hc | hc
  · exact h1 c hc
  · exact h2 c hc

theorem trimmed_dropWhile {cs out : List Char} (h : Trimmed cs out) : out = trimText cs := by
  obtain ⟨⟨pre, post, rfl, h1, h2⟩, h3, h4⟩ := h
  unfold trimText
  have e1 : pre.dropWhile (fun c => decide (IsWhite c)) = [] := by
    apply dropWhile_nil; simpa using h1
  have e2 : post.reverse.dropWhile (fun c => decide (IsWhite c)) = [] := by
    apply dropWhile_nil; simpa using h2
  rw [List.append_assoc, List.dropWhile_append, e1]
  simp only [List.isEmpty_nil, if_true]
  cases out with
  | nil =>
    have e3 : post.dropWhile (fun c => decide (IsWhite c)) = [] := by
      apply dropWhile_nil; simpa using h2
    simp [e3]
  | cons c out =>
    have hc := h3 c rfl
    rw [List.cons_append, List.dropWhile_cons_of_neg (by simpa using hc), ← List.cons_append]
    rw [List.reverse_append, List.dropWhile_append, e2]
    simp only [List.isEmpty_nil, if_true]
    have hr : (c :: out).reverse.head? = (c :: out).getLast? := List.head?_reverse
    cases hh : (c :: out).reverse with
    | nil => simp at hh
    | cons d t =>
      rw [hh] at hr
      have := h4 d hr.symm
      rw [List.dropWhile_cons_of_neg (by simpa using this), ← hh, List.reverse_reverse]

theorem Trimmed.unique {cs a b : List Char} (ha : Trimmed cs a) (hb : Trimmed cs b) : a = b :=
  (trimmed_dropWhile ha).trans (trimmed_dropWhile hb).symm

theorem trimmed_self {cs out : List Char} (h : Trimmed cs out) : Trimmed out out :=
  ⟨⟨[], [], by simp, by simp, by simp⟩, h.2⟩

/-! ## The code -/

variable {N : Nat} {ε : Type} {s : ArrayString N}

theorem trim_ok (hN : N ≤ 255) {cs out : List Char} (hs : Holds s cs) (ht : Trimmed cs out) :
    ∃ s' : ArrayString N, (trim : M (ArrayString N) ε Unit) s = (.ok (), s') ∧ Holds s' out := by
  have hlen := hs.len
  unfold trim
  simp only [M.bind_apply, M.self_apply, M.lift_apply, hs.asStr, charIndices_utf8, hlen]
  by_cases hcs : cs = []
  · subst hcs
    have : out = [] := by
      obtain ⟨⟨pre, post, h, _⟩, _⟩ := ht
      simp at h; exact h.2.1
    subst this
    simp only [indexed, trimStart, trimEnd, List.reverse_nil, byteLen_nil, M.bind_apply, M.attempt_apply]
    rw [replaceRange_noop (by simpa [rangeStart, rangeEnd, RangeB.from_] using hlen.symm)]
    simp only [Res.attempt_ok]
    rw [replaceRange_noop (by simp [rangeStart, rangeEnd, RangeB.to])]
    exact ⟨s, rfl, hs⟩
  by_cases hout : out = []
  · subst hout
    have hw := Trimmed.nil ht
    have e1 : trimStart (byteLen cs) (indexed 0 cs) = byteLen cs := by
      have := trimStart_skip hw (byteLen cs) [] 0
      simpa [trimStart] using this
    have e2 : trimEnd (byteLen cs) (byteLen cs) (indexed 0 cs).reverse = none := by
      obtain ⟨init, d, rfl⟩ : ∃ init d, cs = init ++ [d] := exists_snoc hcs
      have := utf8Size_pos d
      rw [indexed_append]
      simp only [indexed, List.reverse_append, List.reverse_cons, List.reverse_nil, List.nil_append,
        List.cons_append, trimEnd]
      rw [if_pos (by simp; omega)]
    rw [e1, e2]
    exact ⟨_, rfl, Holds.shrink (p := []) (q := cs) (by simpa using hs) rfl⟩
  · obtain ⟨⟨pre, post, rfl, h1, h2⟩, h3, h4⟩ := ht
    obtain ⟨a, out', rfl⟩ : ∃ a t, out = a :: t := by cases out <;> simp_all
    have ha := h3 a rfl
    obtain ⟨init, d, hid⟩ : ∃ init d, a :: out' = init ++ [d] := exists_snoc (by simp)
    have hd := h4 d (by rw [hid]; simp)
    have e1 : trimStart (byteLen (pre ++ a :: out' ++ post)) (indexed 0 (pre ++ a :: out' ++ post))
        = byteLen pre := by
      rw [List.append_assoc, indexed_append, trimStart_skip h1]
      simp [indexed, trimStart, isWhitespace_eq, ha]
    have e2 : trimEnd (byteLen pre) (byteLen (pre ++ a :: out' ++ post))
        (indexed 0 (pre ++ a :: out' ++ post)).reverse = some (byteLen (pre ++ a :: out')) := by
      rw [indexed_append, List.reverse_append, byteLen_append]
      have := trimEnd_skip h2 (byteLen pre) (indexed 0 (pre ++ a :: out')).reverse
        (0 + byteLen (pre ++ a :: out')) (by simp)
      rw [Nat.zero_add] at this
      rw [Nat.zero_add, this, hid, ← List.append_assoc, indexed_append]
      simp [indexed, trimEnd, isWhitespace_eq, hd]
    rw [e1, e2]
    have hle := hs.le
    simp only [byteLen_append] at hle
    obtain ⟨s1, r1, hh1⟩ := replaceRange_ok hN (p := pre ++ a :: out') (m := post) (q := []) (w := [])
      (r := .from_ (byteLen (pre ++ a :: out'))) (by simpa using hs) rfl
      (by simp only [rangeEnd, RangeB.from_, hlen, byteLen_append]) (by simp at hle ⊢; omega)
    simp only [List.append_nil] at hh1
    obtain ⟨s2, r2, hh2⟩ := replaceRange_ok hN (p := []) (m := pre) (q := a :: out') (w := [])
      (r := .to (byteLen pre)) (by simpa using hh1) rfl
      (by simp [rangeEnd, RangeB.to]) (by simp at hle ⊢; omega)
    simp only [utf8_nil] at r1 r2
    simp only [M.bind_apply, M.attempt_apply, r1, r2, Res.attempt_ok, M.pure_apply]
    exact ⟨s2, rfl, by simpa using hh2⟩

end Verif
