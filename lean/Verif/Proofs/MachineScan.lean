import Verif.Model.MachineChars
import Verif.Proofs.Machine
import Verif.Proofs.CoreStr

/-! What the computations of `Scan` give on the UTF-8 of a text, and where they look. -/

namespace Verif.Machine
open Spec

namespace Scan
variable {α β : Type} {g : Nat → UInt8} {a b lo hi : Nat}

/-- The answer on the bytes `g`, if all bytes asked for are at `a .. b`. -/
def eval (g : Nat → UInt8) (a b : Nat) : Scan α → Res Empty α
  | .done x => .ok x
  | .ub => .ub
  | .byte l k => if a ≤ l ∧ l < b then eval g a b (k (g l)) else .ub

theorem eval_bind (s : Scan α) (f : α → Scan β) :
    eval g a b (s >>= f) = eval g a b s >>= fun x => eval g a b (f x) := by
  induction s with
  | done x => rfl
  | ub => rfl
  | byte l k ih =>
    show eval g a b (.byte l fun x => Scan.bind (k x) f) = _
    rw [eval, eval]
    split
    · exact ih _
    · rfl

theorem eval_pure (x : α) : eval g a b (pure x) = .ok x := rfl

theorem eval_load {l : Nat} (h1 : a ≤ l) (h2 : l < b) : eval g a b (load l) = .ok (g l) := if_pos ⟨h1, h2⟩

theorem slice_cons (h : lo < hi) : sliceOf g lo (hi - lo) = g lo :: sliceOf g (lo + 1) (hi - (lo + 1)) := by
  unfold sliceOf
  rw [show hi - lo = (hi - (lo + 1)) + 1 by omega, List.range'_succ]
  rfl

theorem slice_nil (h : ¬ lo < hi) : sliceOf g lo (hi - lo) = [] := by
  unfold sliceOf
  rw [show hi - lo = 0 by omega]
  rfl

theorem slice_concat (h : lo < hi) : sliceOf g lo (hi - lo) = sliceOf g lo (hi - 1 - lo) ++ [g (hi - 1)] := by
  unfold sliceOf
  rw [show hi - lo = (hi - 1 - lo) + 1 by omega, List.range'_concat]
  simp only [List.map_append, List.map_cons, List.map_nil]
  rw [show lo + 1 * (hi - 1 - lo) = hi - 1 by omega]

theorem ok_bind {ε : Type} (x : α) (f : α → Res ε β) : (Res.ok x >>= f) = f x := rfl
theorem ub_bind {ε : Type} (f : α → Res ε β) : ((Res.ub : Res ε α) >>= f) = .ub := rfl

theorem eval_nextUnchecked {X : Type} (h1 : a ≤ lo) (h2 : hi ≤ b) (f : UInt8 × Nat → Res Empty X) :
    (eval g a b (nextUnchecked lo hi) >>= f) =
      if lo < hi then f (g lo, lo + 1) else .ub := by
  unfold nextUnchecked
  split
  · rw [eval_bind, eval_load h1 (by omega)]; rfl
  · rfl

theorem eval_nextBackUnchecked {X : Type} (h1 : a ≤ lo) (h2 : hi ≤ b) (f : UInt8 × Nat → Res Empty X) :
    (eval g a b (nextBackUnchecked lo hi) >>= f) =
      if lo < hi then f (g (hi - 1), hi - 1) else .ub := by
  unfold nextBackUnchecked
  split
  · rw [eval_bind, eval_load (by omega) (by omega)]; rfl
  · rfl

theorem core_nextUnchecked {X : Type} (f : UInt8 × Bytes → Res Empty X) :
    (Core.nextUnchecked (sliceOf g lo (hi - lo)) >>= f) =
      if lo < hi then f (g lo, sliceOf g (lo + 1) (hi - (lo + 1))) else .ub := by
  split
  · rw [slice_cons (by assumption)]; rfl
  · rw [slice_nil (by assumption)]; rfl

theorem core_nextBackUnchecked {X : Type} (f : UInt8 × Bytes → Res Empty X) :
    (Core.nextBackUnchecked (sliceOf g lo (hi - lo)) >>= f) =
      if lo < hi then f (g (hi - 1), sliceOf g lo (hi - 1 - lo)) else .ub := by
  split
  · rw [slice_concat (by assumption), nextBackUnchecked_append]; rfl
  · rw [slice_nil (by assumption)]; rfl

theorem eval_next (h1 : a ≤ lo) (h2 : hi ≤ b) (h : lo ≤ hi) :
    eval g a b (nextCodePoint lo hi) =
      Core.nextCodePoint (sliceOf g lo (hi - lo)) >>= fun p => .ok (p.1, hi - p.2.length) := by
  have done : ∀ {l : Nat} {v : UInt32}, l ≤ hi → eval g a b (pure (some v, l)) =
      (pure (some v, sliceOf g l (hi - l)) : Res Empty _) >>= fun p => .ok (p.1, hi - p.2.length) := by
    intro l v hl
    show Res.ok _ = Res.ok _
    rw [sliceOf_length, show hi - (hi - l) = l by omega]
  unfold nextCodePoint
  by_cases h0 : lo < hi
  · rw [if_pos h0, slice_cons h0, eval_bind, eval_load h1 (by omega), ok_bind]
    unfold Core.nextCodePoint
    by_cases c1 : g lo < 128
    · simp only [if_pos c1]
      exact done (by omega)
    · simp only [if_neg c1]
      rw [eval_bind, eval_nextUnchecked (by omega) h2, core_nextUnchecked]
      split
      · dsimp only
        by_cases c2 : g lo ≥ 0xE0
        · simp only [if_pos c2]
          rw [eval_bind, eval_nextUnchecked (by omega) h2, core_nextUnchecked]
          split
          · dsimp only
            by_cases c3 : g lo ≥ 0xF0
            · simp only [if_pos c3]
              rw [eval_bind, eval_nextUnchecked (by omega) h2, core_nextUnchecked]
              split
              · exact done (by omega)
              · rfl
            · simp only [if_neg c3]
              exact done (by omega)
          · rfl
        · simp only [if_neg c2]
          exact done (by omega)
      · rfl
  · rw [if_neg h0, slice_nil h0]
    show Res.ok _ = Res.ok _
    rw [show lo = hi by omega]
    rfl

theorem eval_nextBack (h1 : a ≤ lo) (h2 : hi ≤ b) (h : lo ≤ hi) :
    eval g a b (nextCodePointReverse lo hi) =
      Core.nextCodePointReverse (sliceOf g lo (hi - lo)) >>= fun p => .ok (p.1, lo + p.2.length) := by
  have done : ∀ {l : Nat} {v : UInt32}, lo ≤ l → eval g a b (pure (some v, l)) =
      (pure (some v, sliceOf g lo (l - lo)) : Res Empty _) >>= fun p => .ok (p.1, lo + p.2.length) := by
    intro l v hl
    show Res.ok _ = Res.ok _
    rw [sliceOf_length, show lo + (l - lo) = l by omega]
  unfold nextCodePointReverse
  by_cases h0 : lo < hi
  · rw [if_pos h0, slice_concat h0, eval_bind, eval_load (by omega) (by omega), ok_bind]
    unfold Core.nextCodePointReverse
    rw [nextBackByte_append]
    dsimp only
    by_cases c1 : g (hi - 1) < 128
    · simp only [if_pos c1]
      exact done (by omega)
    · simp only [if_neg c1]
      rw [eval_bind, eval_nextBackUnchecked h1 (by omega), core_nextBackUnchecked]
      split
      · dsimp only
        by_cases c2 : Core.utf8IsContByte (g (hi - 1 - 1)) = true
        · simp only [if_pos c2]
          rw [eval_bind, eval_nextBackUnchecked h1 (by omega), core_nextBackUnchecked]
          split
          · dsimp only
            by_cases c3 : Core.utf8IsContByte (g (hi - 1 - 1 - 1)) = true
            · simp only [if_pos c3]
              rw [eval_bind, eval_nextBackUnchecked h1 (by omega), core_nextBackUnchecked]
              split
              · exact done (by omega)
              · rfl
            · simp only [if_neg c3]
              exact done (by omega)
          · rfl
        · simp only [if_neg c2]
          exact done (by omega)
      · rfl
  · rw [if_neg h0, slice_nil h0]
    show Res.ok _ = Res.ok _
    rw [show hi = lo by omega]
    rfl

theorem eval_toChar (x : Res Empty (Option UInt32 × Bytes)) (f : Nat → Nat) :
    ((x >>= fun p => .ok (p.1, f p.2.length)) >>= fun p => eval g a b (toChar p)) =
      (x >>= Core.toChar) >>= fun p => .ok (p.1, f p.2.length) := by
  cases x with
  | ok p =>
    obtain ⟨o, t⟩ := p
    cases o with
    | none => rfl
    | some v =>
      show eval g a b (toChar (some v, f t.length)) = (Core.charFromU32Unchecked v >>= fun c => .ok (some c, t)) >>= _
      unfold toChar Core.charFromU32Unchecked
      dsimp only
      split <;> rfl
  | err e => rfl
  | panic => rfl
  | ub => rfl
  | diverge => rfl

variable {c : Char} {cs : List Char}

theorem slice_length (hs : sliceOf g lo (hi - lo) = utf8 cs) : hi - lo = byteLen cs := by
  rw [← length_utf8, ← hs, sliceOf_length]

theorem slice_split {k : Nat} (h : lo + k ≤ hi) :
    sliceOf g lo (hi - lo) = sliceOf g lo k ++ sliceOf g (lo + k) (hi - (lo + k)) := by
  unfold sliceOf
  rw [← List.map_append, List.range'_append_1, show k + (hi - (lo + k)) = hi - lo by omega]

/-- `next` on a text. -/
theorem next_text (h1 : a ≤ lo) (h2 : hi ≤ b) (hs : sliceOf g lo (hi - lo) = utf8 (c :: cs)) :
    eval g a b (next lo hi) = .ok (some c, lo + c.utf8Size) ∧
      lo + c.utf8Size ≤ hi ∧ sliceOf g (lo + c.utf8Size) (hi - (lo + c.utf8Size)) = utf8 cs := by
  have hl := slice_length hs
  have hp := utf8Size_pos c
  rw [byteLen_cons] at hl
  refine ⟨?_, by omega, ?_⟩
  · unfold next
    rw [eval_bind, eval_next h1 h2 (by omega), eval_toChar _ (hi - ·)]
    show Core.charsNext _ >>= _ = _
    rw [hs, utf8_cons, core_charsNext]
    show Res.ok _ = Res.ok _
    rw [length_utf8, show hi - byteLen cs = lo + c.utf8Size by omega]
  · rw [slice_split (k := c.utf8Size) (by omega), utf8_cons] at hs
    exact (List.append_inj hs (by rw [sliceOf_length, length_encode])).2

theorem next_none (h : hi = lo) : eval g a b (next lo hi) = .ok (none, lo) := by
  subst h
  unfold next nextCodePoint
  rw [if_neg (Nat.lt_irrefl _)]
  rfl

/-- `next_back` on a text. -/
theorem nextBack_text (h1 : a ≤ lo) (h2 : hi ≤ b) (hs : sliceOf g lo (hi - lo) = utf8 (cs ++ [c])) :
    eval g a b (nextBack lo hi) = .ok (some c, lo + byteLen cs) ∧
      lo + byteLen cs + c.utf8Size = hi ∧ sliceOf g lo (byteLen cs) = utf8 cs := by
  have hl := slice_length hs
  have hp := utf8Size_pos c
  rw [byteLen_append, byteLen_cons, byteLen_nil] at hl
  refine ⟨?_, by omega, ?_⟩
  · unfold nextBack
    rw [eval_bind, eval_nextBack h1 h2 (by omega), eval_toChar _ (lo + ·)]
    show Core.charsNextBack _ >>= _ = _
    rw [hs, utf8_append, utf8_cons, utf8_nil, List.append_nil, core_charsNextBack]
    show Res.ok _ = Res.ok _
    rw [length_utf8]
  · rw [slice_split (k := byteLen cs) (by omega), utf8_append] at hs
    exact (List.append_inj hs (by rw [sliceOf_length, length_utf8])).1

theorem nextBack_none (h : hi = lo) : eval g a b (nextBack lo hi) = .ok (none, hi) := by
  subst h
  unfold nextBack nextCodePointReverse
  rw [if_neg (Nat.lt_irrefl _)]
  rfl

theorem last_text (h1 : a ≤ lo) (h2 : hi ≤ b) (h : lo ≤ hi) (hs : sliceOf g lo (hi - lo) = utf8 cs) :
    eval g a b (last lo hi) = .ok cs.getLast? := by
  unfold last
  rw [eval_bind]
  rcases List.eq_nil_or_concat cs with rfl | ⟨cs, c, rfl⟩
  · have := slice_length hs
    rw [nextBack_none (by simp at this; omega)]
    rfl
  · rw [List.concat_eq_append] at hs ⊢
    rw [(nextBack_text h1 h2 hs).1]
    simp [eval_pure]

theorem trimStart_text {start n fuel : Nat} (hf : byteLen cs ≤ fuel) (h : lo ≤ n) (hn : n ≤ b)
    (hs : sliceOf g lo (n - lo) = utf8 cs) :
    eval g 0 b (trimStart start n fuel lo) = .ok (ArrayString.trimStart start (indexed lo cs)) := by
  induction fuel generalizing lo cs with
  | zero =>
    obtain rfl := byteLen_eq_zero.1 (Nat.le_zero.1 hf)
    have := slice_length hs
    unfold trimStart
    rw [if_neg (by simp at this; omega)]
    rfl
  | succ fuel ih =>
    unfold trimStart
    rw [eval_bind]
    cases cs with
    | nil =>
      have := slice_length hs
      rw [next_none (by simp at this; omega)]
      rfl
    | cons c cs =>
      obtain ⟨e1, e2, e3⟩ := next_text (Nat.zero_le _) hn hs
      have := utf8Size_pos c
      rw [byteLen_cons] at hf
      rw [e1, ok_bind]
      unfold indexed ArrayString.trimStart
      dsimp only
      split
      · rfl
      · exact ih (by omega) e2 e3

theorem trimEnd_text {start stop fuel : Nat} (hf : byteLen cs ≤ fuel) (hh : hi ≤ b)
    (hs : sliceOf g 0 hi = utf8 cs) :
    eval g 0 b (trimEnd start fuel stop hi) = .ok (ArrayString.trimEnd start stop (indexed 0 cs).reverse) := by
  induction fuel generalizing hi cs stop with
  | zero =>
    obtain rfl := byteLen_eq_zero.1 (Nat.le_zero.1 hf)
    have := slice_length (lo := 0) hs
    unfold trimEnd
    rw [if_neg (by simp at this; omega)]
    rfl
  | succ fuel ih =>
    unfold trimEnd
    rw [eval_bind]
    rcases List.eq_nil_or_concat cs with rfl | ⟨cs, c, rfl⟩
    · have := slice_length (lo := 0) hs
      rw [nextBack_none (by simp at this; omega)]
      rfl
    · rw [List.concat_eq_append] at hs hf ⊢
      obtain ⟨e1, e2, e3⟩ := nextBack_text (lo := 0) (Nat.zero_le _) hh hs
      have := utf8Size_pos c
      rw [byteLen_append, byteLen_cons, byteLen_nil] at hf
      rw [e1, ok_bind, indexed_append, List.reverse_append]
      simp only [indexed, List.reverse_cons, List.reverse_nil, List.nil_append, List.cons_append]
      unfold ArrayString.trimEnd
      split
      · rfl
      · split
        · rfl
        · rw [Nat.zero_add]
          exact ih (by omega) (by omega) e3

/-! ## Where they look -/

theorem asked_bind {s : Scan α} {f : α → Scan β} {x : α} (h : eval g a b s = .ok x) :
    asked g (s >>= f) = asked g s ++ asked g (f x) := by
  induction s with
  | done y => cases h; rfl
  | ub => cases h
  | byte l k ih =>
    rw [eval] at h
    split at h
    · show l :: asked g (k (g l) >>= f) = _
      rw [ih _ h]
      rfl
    · cases h

theorem asked_toChar (p : Option UInt32 × Nat) : asked g (toChar p) = [] := by
  obtain ⟨o, i⟩ := p
  unfold toChar
  cases o with
  | none => rfl
  | some v =>
    dsimp only
    split <;> rfl

theorem asked_nextUnchecked {f : UInt8 × Nat → Scan β} (h : lo < hi) :
    asked g (nextUnchecked lo hi >>= f) = lo :: asked g (f (g lo, lo + 1)) := by
  unfold nextUnchecked
  rw [if_pos h]
  rfl

theorem asked_nextBackUnchecked {f : UInt8 × Nat → Scan β} (h : lo < hi) :
    asked g (nextBackUnchecked lo hi >>= f) = (hi - 1) :: asked g (f (g (hi - 1), hi - 1)) := by
  unfold nextBackUnchecked
  rw [if_pos h]
  rfl

theorem ite_ok {P : Prop} [Decidable P] {x : Res Empty α} {y : α} (h : (if P then x else .ub) = .ok y) :
    P ∧ x = .ok y := by
  split at h
  · exact ⟨by assumption, h⟩
  · cases h

/-- `next_code_point` asks for the bytes it moves over, in order. -/
theorem asked_nextCodePoint {o : Option UInt32} {l : Nat} (h1 : a ≤ lo) (h2 : hi ≤ b)
    (h : eval g a b (nextCodePoint lo hi) = .ok (o, l)) :
    asked g (nextCodePoint lo hi) = List.range' lo (l - lo) := by
  unfold nextCodePoint at h ⊢
  by_cases h0 : lo < hi
  · rw [if_pos h0, eval_bind, eval_load h1 (by omega), ok_bind] at h
    rw [if_pos h0]
    show lo :: asked g (ite _ _ _) = _
    by_cases c1 : g lo < 128
    · rw [if_pos c1] at h ⊢
      cases h
      simp [asked, pure, List.range'_succ]
    · rw [if_neg c1] at h ⊢
      rw [eval_bind, eval_nextUnchecked (by omega) h2] at h
      obtain ⟨k1, h⟩ := ite_ok h
      rw [asked_nextUnchecked k1]
      dsimp only at h ⊢
      by_cases c2 : g lo ≥ 0xE0
      · rw [if_pos c2] at h ⊢
        rw [eval_bind, eval_nextUnchecked (by omega) h2] at h
        obtain ⟨k2, h⟩ := ite_ok h
        rw [asked_nextUnchecked k2]
        dsimp only at h ⊢
        by_cases c3 : g lo ≥ 0xF0
        · rw [if_pos c3] at h ⊢
          rw [eval_bind, eval_nextUnchecked (by omega) h2] at h
          obtain ⟨k3, h⟩ := ite_ok h
          rw [asked_nextUnchecked k3]
          cases h
          rw [show lo + 1 + 1 + 1 + 1 - lo = 4 by omega]
          rfl
        · rw [if_neg c3] at h ⊢
          cases h
          rw [show lo + 1 + 1 + 1 - lo = 3 by omega]
          rfl
      · rw [if_neg c2] at h ⊢
        cases h
        rw [show lo + 1 + 1 - lo = 2 by omega]
        rfl
  · rw [if_neg h0] at h ⊢
    cases h
    simp [asked, pure]

/-- `next_code_point_reverse` asks for the bytes it moves over, from the last one on. -/
theorem asked_nextCodePointReverse {o : Option UInt32} {l : Nat} (h1 : a ≤ lo) (h2 : hi ≤ b)
    (h : eval g a b (nextCodePointReverse lo hi) = .ok (o, l)) :
    asked g (nextCodePointReverse lo hi) = (List.range' l (hi - l)).reverse := by
  have two : ∀ {x : Nat}, List.range' x 2 = [x, x + 1] := rfl
  have three : ∀ {x : Nat}, List.range' x 3 = [x, x + 1, x + 1 + 1] := rfl
  have four : ∀ {x : Nat}, List.range' x 4 = [x, x + 1, x + 1 + 1, x + 1 + 1 + 1] := rfl
  unfold nextCodePointReverse at h ⊢
  by_cases h0 : lo < hi
  · rw [if_pos h0, eval_bind, eval_load (by omega) (by omega), ok_bind] at h
    rw [if_pos h0]
    show (hi - 1) :: asked g (ite _ _ _) = _
    by_cases c1 : g (hi - 1) < 128
    · rw [if_pos c1] at h ⊢
      cases h
      rw [show hi - (hi - 1) = 1 by omega]
      rfl
    · rw [if_neg c1] at h ⊢
      rw [eval_bind, eval_nextBackUnchecked h1 (by omega)] at h
      obtain ⟨k1, h⟩ := ite_ok h
      rw [asked_nextBackUnchecked k1]
      dsimp only at h ⊢
      by_cases c2 : Core.utf8IsContByte (g (hi - 1 - 1)) = true
      · rw [if_pos c2] at h ⊢
        rw [eval_bind, eval_nextBackUnchecked h1 (by omega)] at h
        obtain ⟨k2, h⟩ := ite_ok h
        rw [asked_nextBackUnchecked k2]
        dsimp only at h ⊢
        by_cases c3 : Core.utf8IsContByte (g (hi - 1 - 1 - 1)) = true
        · rw [if_pos c3] at h ⊢
          rw [eval_bind, eval_nextBackUnchecked h1 (by omega)] at h
          obtain ⟨k3, h⟩ := ite_ok h
          rw [asked_nextBackUnchecked k3]
          cases h
          rw [show hi - (hi - 1 - 1 - 1 - 1) = 4 by omega, four]
          simp [asked, pure]
          omega
        · rw [if_neg c3] at h ⊢
          cases h
          rw [show hi - (hi - 1 - 1 - 1) = 3 by omega, three]
          simp [asked, pure]
          omega
      · rw [if_neg c2] at h ⊢
        cases h
        rw [show hi - (hi - 1 - 1) = 2 by omega, two]
        simp [asked, pure]
        omega
  · rw [if_neg h0] at h ⊢
    cases h
    simp [asked, pure]

theorem bind_ok_inv {ε : Type} {x : Res ε α} {f : α → Res ε β} {y : β} (h : x >>= f = .ok y) :
    ∃ a, x = .ok a ∧ f a = .ok y := by
  cases x with
  | ok a => exact ⟨a, rfl, h⟩
  | err => cases h
  | panic => cases h
  | ub => cases h
  | diverge => cases h

theorem toChar_snd {p : Option UInt32 × Nat} {o : Option Char} {l : Nat} (h : eval g a b (toChar p) = .ok (o, l)) :
    p.2 = l := by
  obtain ⟨v, i⟩ := p
  unfold toChar at h
  cases v with
  | none => cases h; rfl
  | some v =>
    dsimp only at h
    split at h <;> cases h
    rfl

theorem asked_next {o : Option Char} {l : Nat} (h1 : a ≤ lo) (h2 : hi ≤ b)
    (h : eval g a b (next lo hi) = .ok (o, l)) : asked g (next lo hi) = List.range' lo (l - lo) := by
  unfold next at h ⊢
  rw [eval_bind] at h
  obtain ⟨p, e1, e2⟩ := bind_ok_inv h
  rw [asked_bind e1, asked_toChar, List.append_nil, asked_nextCodePoint h1 h2 (show _ = Res.ok (p.1, p.2) from e1),
    toChar_snd e2]

theorem asked_nextBack {o : Option Char} {l : Nat} (h1 : a ≤ lo) (h2 : hi ≤ b)
    (h : eval g a b (nextBack lo hi) = .ok (o, l)) : asked g (nextBack lo hi) = (List.range' l (hi - l)).reverse := by
  unfold nextBack at h ⊢
  rw [eval_bind] at h
  obtain ⟨p, e1, e2⟩ := bind_ok_inv h
  rw [asked_bind e1, asked_toChar, List.append_nil,
    asked_nextCodePointReverse h1 h2 (show _ = Res.ok (p.1, p.2) from e1), toChar_snd e2]

theorem asked_last (hs : sliceOf g lo (hi - lo) = utf8 (cs ++ [c])) :
    asked g (last lo hi) = (List.range' (lo + byteLen cs) c.utf8Size).reverse := by
  obtain ⟨e1, e2, -⟩ := nextBack_text (Nat.le_refl _) (Nat.le_refl _) hs
  unfold last
  rw [asked_bind e1, asked_nextBack (Nat.le_refl _) (Nat.le_refl _) e1,
    show hi - (lo + byteLen cs) = c.utf8Size by omega]
  simp [asked, pure]

/-- The first loop of `trim` asks for the bytes of the white space in front and of the character after it. -/
theorem asked_trimStart {ws rest : List Char} {start n fuel : Nat} (hw : ∀ x ∈ ws, Str.isWhitespace x = true)
    (hc : Str.isWhitespace c = false) (hf : ws.length < fuel)
    (hs : sliceOf g lo (n - lo) = utf8 (ws ++ c :: rest)) :
    asked g (trimStart start n fuel lo) = List.range' lo (byteLen ws + c.utf8Size) := by
  induction ws generalizing lo fuel with
  | nil =>
    obtain ⟨fuel, rfl⟩ : ∃ k, fuel = k + 1 := ⟨fuel - 1, by simp at hf; omega⟩
    obtain ⟨e1, -⟩ := next_text (Nat.zero_le _) (Nat.le_refl _) hs
    unfold trimStart
    rw [asked_bind e1, asked_next (Nat.zero_le _) (Nat.le_refl _) e1]
    simp [hc, asked, pure]
  | cons x ws ih =>
    obtain ⟨fuel, rfl⟩ : ∃ k, fuel = k + 1 := ⟨fuel - 1, by omega⟩
    obtain ⟨e1, e2, e3⟩ := next_text (Nat.zero_le _) (Nat.le_refl _) hs
    unfold trimStart
    rw [asked_bind e1, asked_next (Nat.zero_le _) (Nat.le_refl _) e1]
    dsimp only
    rw [if_neg (by simp [hw x List.mem_cons_self]),
      ih (fun y hy => hw y (List.mem_cons_of_mem _ hy)) (by simpa using hf) e3,
      show lo + x.utf8Size - lo = x.utf8Size by omega, List.range'_append_1, byteLen_cons, Nat.add_assoc]

/-- On white space alone the first loop asks for every byte. -/
theorem asked_trimStart_blank {ws : List Char} {start n fuel : Nat} (hw : ∀ x ∈ ws, Str.isWhitespace x = true)
    (hf : ws.length ≤ fuel) (hn : lo ≤ n) (hs : sliceOf g lo (n - lo) = utf8 ws) :
    asked g (trimStart start n fuel lo) = List.range' lo (byteLen ws) := by
  induction ws generalizing lo fuel with
  | nil =>
    obtain rfl : n = lo := by have := slice_length hs; simp at this; omega
    cases fuel with
    | zero => unfold trimStart; simp [asked, pure]
    | succ fuel =>
      have e1 := next_none (g := g) (a := 0) (b := n) (hi := n) (lo := n) rfl
      unfold trimStart
      rw [asked_bind e1, asked_next (Nat.zero_le _) (Nat.le_refl _) e1]
      simp [asked, pure]
  | cons x ws ih =>
    obtain ⟨fuel, rfl⟩ : ∃ k, fuel = k + 1 := ⟨fuel - 1, by simp at hf; omega⟩
    obtain ⟨e1, e2, e3⟩ := next_text (Nat.zero_le _) (Nat.le_refl _) hs
    have hl := slice_length hs
    have hp := utf8Size_pos x
    rw [byteLen_cons] at hl
    unfold trimStart
    rw [asked_bind e1, asked_next (Nat.zero_le _) (Nat.le_refl _) e1]
    dsimp only
    rw [if_neg (by simp [hw x List.mem_cons_self]),
      ih (fun y hy => hw y (List.mem_cons_of_mem _ hy)) (by simpa using hf) (by omega) e3,
      show lo + x.utf8Size - lo = x.utf8Size by omega, List.range'_append_1, byteLen_cons]

/-- The second loop then asks for the bytes of the last character. -/
theorem asked_trimEnd_blank {start stop fuel : Nat} (hstart : byteLen cs < start) (hf : 0 < fuel)
    (hs : sliceOf g 0 hi = utf8 (cs ++ [c])) :
    asked g (trimEnd start fuel stop hi) = (List.range' (byteLen cs) c.utf8Size).reverse := by
  obtain ⟨fuel, rfl⟩ : ∃ k, fuel = k + 1 := ⟨fuel - 1, by omega⟩
  obtain ⟨e1, e2, -⟩ := nextBack_text (lo := 0) (Nat.le_refl _) (Nat.le_refl _) hs
  unfold trimEnd
  rw [asked_bind e1, asked_nextBack (Nat.le_refl _) (Nat.le_refl _) e1]
  dsimp only
  rw [if_pos (by omega), show hi - (0 + byteLen cs) = c.utf8Size by omega, Nat.zero_add]
  simp [asked, pure]

/-- The second loop asks for the bytes of the white space at the end and of the character before it. -/
theorem asked_trimEnd {ws rest : List Char} {start stop fuel : Nat} (hw : ∀ x ∈ ws, Str.isWhitespace x = true)
    (hc : Str.isWhitespace c = false) (hstart : start ≤ byteLen rest) (hf : ws.length < fuel)
    (hs : sliceOf g 0 hi = utf8 (rest ++ c :: ws)) :
    asked g (trimEnd start fuel stop hi) = (List.range' (byteLen rest) (c.utf8Size + byteLen ws)).reverse := by
  obtain ⟨rw', hrw⟩ : ∃ r, ws.reverse = r := ⟨_, rfl⟩
  induction rw' generalizing ws hi stop fuel with
  | nil =>
    obtain rfl : ws = [] := by simpa using hrw
    obtain ⟨fuel, rfl⟩ : ∃ k, fuel = k + 1 := ⟨fuel - 1, by simp at hf; omega⟩
    obtain ⟨e1, e2, -⟩ := nextBack_text (lo := 0) (Nat.le_refl _) (Nat.le_refl _) hs
    unfold trimEnd
    rw [asked_bind e1, asked_nextBack (Nat.le_refl _) (Nat.le_refl _) e1]
    dsimp only
    rw [if_neg (by omega), if_pos (by simp [hc]), show hi - (0 + byteLen rest) = c.utf8Size by omega, Nat.zero_add]
    simp [asked, pure]
  | cons x r ih =>
    obtain rfl : ws = r.reverse ++ [x] := by
      have := congrArg List.reverse hrw
      simpa using this
    obtain ⟨fuel, rfl⟩ : ∃ k, fuel = k + 1 := ⟨fuel - 1, by omega⟩
    rw [show rest ++ c :: (r.reverse ++ [x]) = (rest ++ c :: r.reverse) ++ [x] by simp] at hs
    obtain ⟨e1, e2, e3⟩ := nextBack_text (lo := 0) (Nat.le_refl _) (Nat.le_refl _) hs
    unfold trimEnd
    rw [asked_bind e1, asked_nextBack (Nat.le_refl _) (Nat.le_refl _) e1]
    dsimp only
    have hl : byteLen (rest ++ c :: r.reverse) = byteLen rest + (c.utf8Size + byteLen r.reverse) := by simp
    rw [Nat.zero_add] at e2 ⊢
    rw [if_neg (by omega), if_neg (by simp [hw x (by simp)]),
      ih (ws := r.reverse) (fun y hy => hw y (by simp at hy ⊢; exact Or.inl hy)) (by simp at hf ⊢; omega) e3 (by simp),
      ← List.reverse_append, hl, List.range'_append_1]
    congr 2
    simp
    omega

end Scan

section
variable {R : Borrow.Rules} {N : Nat} {ε α β : Type} {P : Nat → Prop} {t : Borrow.Tag}

/-- Nothing has changed but the tags, and those only where `P` does not hold. -/
def Off (P : Nat → Prop) (s s' : Mem R N) : Prop := s'.bytes = s.bytes ∧ ∀ l, P l → s'.mem l = s.mem l

theorem Off.trans {s s' s'' : Mem R N} (h : Off P s s') (h' : Off P s' s'') : Off P s s'' :=
  ⟨h'.1.trans h.1, fun l hl => (h'.2 l hl).trans (h.2 l hl)⟩

theorem off_bind {x : M (Mem R N) ε α} {f : α → M (Mem R N) ε β} {s : Mem R N} (h : Off P s (x s).2)
    (hf : ∀ a s', x s = (.ok a, s') → Off P s' (f a s').2) : Off P s ((x >>= f) s).2 := by
  show Off P s (M.bind x f s).2
  unfold M.bind
  generalize hx : x s = y at h
  obtain ⟨r, s'⟩ := y
  cases r with
  | ok a => exact h.trans (hf a s' hx)
  | err => exact h
  | panic => exact h
  | ub => exact h
  | diverge => exact h

theorem off_refl {s : Mem R N} : Off P s s := ⟨rfl, fun _ _ => rfl⟩

theorem off_touch {lo hi : Nat} {f : R.St → Option R.St} {s : Mem R N} (h : ∀ l, P l → ¬ (lo ≤ l ∧ l < hi)) :
    Off P s ((touch lo hi f : M (Mem R N) ε Unit) s).2 := by
  unfold touch
  split
  · exact ⟨rfl, fun l hl => if_neg (h l hl)⟩
  · exact off_refl

theorem loaded_byte {p : Borrow.Tag} {l : Nat} {x : UInt8} {s1 s2 : Mem R N}
    (e2 : (loadByte p l : M (Mem R N) ε _) s1 = (.ok x, s2)) : x = s1.bytes l := by
  unfold loadByte load at e2
  change M.bind (M.bind _ _) _ s1 = _ at e2
  unfold M.bind touch at e2
  by_cases hc : ((List.range' l (l + 1 - l)).all fun l => (R.read p (s1.mem l)).isSome) = true
  · rw [if_pos hc] at e2
    cases e2
    rfl
  · rw [if_neg hc] at e2
    cases e2

/-- A scan leaves the tags alone where it does not ask, and the bytes everywhere. -/
theorem scan_leaves {sc : Scan α} {m : Mem R N} :
    ((scan t sc : M (Mem R N) ε α) m).2.bytes = m.bytes ∧
    ∀ l, l ∉ sc.asked m.bytes → ((scan t sc : M (Mem R N) ε α) m).2.mem l = m.mem l := by
  obtain ⟨g, hg⟩ : ∃ g, m.bytes = g := ⟨_, rfl⟩
  show Off (fun l => l ∉ sc.asked m.bytes) m _
  rw [hg]
  induction sc generalizing m with
  | done a => exact off_refl
  | ub => exact off_refl
  | byte l k ih =>
    have hP : ∀ l', l' ∉ (Scan.byte l k).asked g → ¬ (l ≤ l' ∧ l' < l + 1) := by
      intro l' h h'
      obtain rfl : l' = l := by omega
      exact h (by simp [Scan.asked])
    unfold scan
    refine off_bind (off_bind off_refl fun u s hu => off_bind (off_touch hP) fun _ _ _ => off_refl) fun p s1 e1 => ?_
    have g1 : s1.bytes = g := by
      have : Off (fun l' => l' ∉ (Scan.byte l k).asked g) m
          ((retagShared t l (l + 1) false : M (Mem R N) ε _) m).2 :=
        off_bind off_refl fun u s hu => off_bind (off_touch hP) fun _ _ _ => off_refl
      rw [e1] at this
      exact this.1.trans hg
    have load1 : Off (fun l' => l' ∉ (Scan.byte l k).asked g) s1 ((loadByte p l : M (Mem R N) ε _) s1).2 :=
      off_bind (off_bind (off_touch hP) fun _ _ _ => off_refl) fun _ _ _ => off_refl
    refine off_bind load1 fun x s2 e2 => ?_
    rw [e2] at load1
    have g2 : s2.bytes = g := load1.1.trans g1
    have hx : x = g l := (loaded_byte e2).trans (congrFun g1 l)
    subst hx
    exact ⟨(ih _ g2).1, fun l' h => (ih _ g2).2 l' fun h' => h (by simp [Scan.asked, h'])⟩

/-- With other bytes it does the same and leaves those bytes. -/
def Blind (g' : Nat → UInt8) (x : M (Mem R N) ε α) (s : Mem R N) : Prop :=
  x { s with bytes := g' } = ((x s).1, { (x s).2 with bytes := g' })

theorem blind_bind {g' : Nat → UInt8} {x : M (Mem R N) ε α} {f : α → M (Mem R N) ε β} {s : Mem R N} (h : Blind g' x s)
    (hf : ∀ a s', x s = (.ok a, s') → Blind g' (f a) s') : Blind g' (x >>= f) s := by
  show M.bind x f _ = ((M.bind x f s).1, { (M.bind x f s).2 with bytes := g' })
  unfold Blind at h
  unfold M.bind
  rw [h]
  generalize hx : x s = y
  obtain ⟨r, s'⟩ := y
  cases r with
  | ok a => exact hf a s' hx
  | err => rfl
  | panic => rfl
  | ub => rfl
  | diverge => rfl

theorem blind_touch {g' : Nat → UInt8} {lo hi : Nat} {f : R.St → Option R.St} {s : Mem R N} :
    Blind g' (touch lo hi f : M (Mem R N) ε Unit) s := by
  unfold Blind touch
  dsimp only
  split <;> rfl

theorem blind_shared {g' : Nat → UInt8} {lo hi : Nat} {s : Mem R N} :
    Blind g' (retagShared t lo hi false : M (Mem R N) ε _) s :=
  blind_bind rfl fun _ _ _ => blind_bind blind_touch fun _ _ _ => rfl

theorem blind_loadByte {g' : Nat → UInt8} {l : Nat} {s : Mem R N} (h : g' l = s.bytes l) :
    Blind g' (loadByte t l : M (Mem R N) ε _) s := by
  refine blind_bind (blind_bind blind_touch fun _ s' e => ?_) fun _ _ _ => rfl
  have hs : s'.bytes = s.bytes := by
    have := (off_touch (ε := ε) (P := fun _ => False) (s := s) (lo := l) (hi := l + 1) (f := R.read t)
      fun _ h => h.elim).1
    rw [e] at this
    exact this
  show (Res.ok [g' l], _) = (Res.ok [s'.bytes l], _)
  rw [h, hs]

/-- What a scan finds depends on the bytes only where it asks. -/
theorem scan_blind {g' : Nat → UInt8} {sc : Scan α} {m : Mem R N} (h : ∀ l ∈ sc.asked m.bytes, g' l = m.bytes l) :
    Blind g' (scan t sc : M (Mem R N) ε α) m := by
  induction sc generalizing m with
  | done a => rfl
  | ub => rfl
  | byte l k ih =>
    unfold scan
    refine blind_bind blind_shared fun p s1 e1 => ?_
    have g1 : s1.bytes = m.bytes := by
      have : Off (fun _ => False) m ((retagShared t l (l + 1) false : M (Mem R N) ε _) m).2 :=
        off_bind off_refl fun u s hu => off_bind (off_touch fun _ h => h.elim) fun _ _ _ => off_refl
      rw [e1] at this
      exact this.1
    have load1 : Off (fun _ => False) s1 ((loadByte p l : M (Mem R N) ε _) s1).2 :=
      off_bind (off_bind (off_touch fun _ h => h.elim) fun _ _ _ => off_refl) fun _ _ _ => off_refl
    refine blind_bind (blind_loadByte (by rw [g1]; exact h l (by simp [Scan.asked]))) fun x s2 e2 => ?_
    rw [e2] at load1
    have g2 : s2.bytes = m.bytes := load1.1.trans g1
    have hx : x = m.bytes l := (loaded_byte e2).trans (congrFun g1 l)
    subst hx
    exact ih _ fun l' hl => by
      rw [g2] at hl ⊢
      exact h l' (by simp [Scan.asked, hl])

end

end Verif.Machine
