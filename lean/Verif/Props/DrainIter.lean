import Verif.Proofs.DrainIter
import Verif.Props.Traits

/-! # Properties of `Drain` with the iterator methods it gets from core -/

namespace Verif
open Spec ArrayString ArrayString.Drain

variable {N : Nat} [ValidCapacity N] {ε α β γ κ : Type}

omit [ValidCapacity N] in
theorem seen {d : Drain N} {cs : List Char} (h : Holds d.inner cs) (e : End) :
    Holds d.inner (facing e (facing e cs)) := by rw [facing_facing]; exact h

/-- C56: any program whatever that uses a `Drain` through `next`, `next_back` and `as_str`, choosing what
to do next by what it got, gets what it would get from a queue of the characters, and leaves what would be
left; it goes on for ever only if it would with the queue. -/
theorem C56_client (c : κ → Move κ α) (q : κ) (d : Drain N) (cs : List Char) (hd : Holds d.inner cs) :
    match serve c q cs with
    | some (a, ds) => ∃ d', (client c q d : Res ε _) = .ok (a, d') ∧ Holds d'.inner ds
    | none => (client c q d : Res ε (α × Drain N)) = .diverge := by
  cases h : serve c q cs with
  | some r => exact client_done ValidCapacity.le c q cs r h d hd
  | none => exact client_endless ValidCapacity.le c q d ⟨cs, hd, h⟩

/-- A program that compares the two ends until they differ or meet: is the text a palindrome? -/
def palindrome : Option (Option Char) × Option Bool → Move (Option (Option Char) × Option Bool) Bool
  | (_, some b) => .stop b
  | (none, none) => .ask .front fun o => (some o, none)
  | (some none, none) => .stop true
  | (some (some c), none) => .ask .back fun
    | none => (none, some true)
    | some b => if b = c then (none, none) else (none, some false)

/-- Test. -/
example : serve palindrome (none, none) ['a', 'é', 'b', 'c', 'a'] = some (false, ['b']) ∧
    serve palindrome (none, none) ['a', 'é', 'a'] = some (true, []) := by
  constructor <;> (repeat rw [serve]; simp [palindrome, takeEnd])

/-- A program that never finishes: it asks for ever. -/
example (cs : List Char) : serve (κ := Unit) (α := Bool) (fun _ => .look fun _ => ()) () cs = none := by
  cases h : serve (κ := Unit) (α := Bool) (fun _ => .look fun _ => ()) () cs with
  | none => rfl
  | some r =>
    exact (serve.partial_correctness (κ := Unit) (α := Bool) (fun _ => .look fun _ => ()) (fun _ _ _ => False)
      (fun f ih q cs r h => ih _ _ _ h) () cs r h).elim

/-- C56: `try_fold` and `try_rfold` give the closure the characters in order, stop when told to, and
leave the characters not given yet, also if the closure panics. -/
theorem C56_try_fold (e : End) (f : β → Char → Flow γ β) (b : β) (d : Drain N) (cs : List Char)
    (hd : Holds d.inner cs) :
    ∃ d', (tryFold e f b d : Res ε _) = .ok ((foldFlow f b (facing e cs)).1, d') ∧
      Holds d'.inner (facing e (foldFlow f b (facing e cs)).2) :=
  tryFold_eq ValidCapacity.le e f b _ d (seen hd e)

example : foldFlow (fun n c => if c = 'é' then .stop n else .go (n + 1)) 0 (facing .back ['h', 'é', ' ', '!']) =
    (.stop 2, ['h']) := by decide

/-- C56: `fold`, `rfold` and `for` loops give the closure every character, in order, unless it panics. -/
theorem C56_fold (e : End) (f : β → Char → Option β) (b : β) (d : Drain N) (cs : List Char)
    (hd : Holds d.inner cs) :
    (∀ x, (facing e cs).foldlM f b = some x → (fold e f b d : Res ε β) = .ok x) ∧
    ((facing e cs).foldlM f b = none → (fold e f b d : Res ε β) = .panic) := by
  rw [fold_eq ValidCapacity.le e f b _ d (seen hd e)]
  exact ⟨fun x h => by rw [h], fun h => by rw [h]⟩

example : (facing .back ['a', 'b']).foldlM (fun s c => if c = 'z' then none else some (s ++ [c])) [] =
    some ['b', 'a'] := by decide

/-- C56: `count`, `last`, `collect` to a `Vec<char>` or `String`, and the same after `rev()`. -/
theorem C56_collect (e : End) (d : Drain N) (cs : List Char) (hd : Holds d.inner cs) :
    (count e d : Res ε Nat) = .ok cs.length ∧
    (last .front d : Res ε _) = .ok cs.getLast? ∧
    (last .back d : Res ε _) = .ok cs.head? ∧
    (collectVec .front d : Res ε _) = .ok cs ∧
    (collectVec .back d : Res ε _) = .ok cs.reverse ∧
    (collectString .front d : Res ε _) = .ok (utf8 cs) ∧
    (collectString .back d : Res ε _) = .ok (utf8 cs.reverse) := by
  have hN := ValidCapacity.le (N := N)
  refine ⟨?_, last_eq hN .front hd, ?_, collectVec_eq hN .front hd, collectVec_eq hN .back (seen hd .back),
    collectString_eq hN .front hd, collectString_eq hN .back (seen hd .back)⟩
  · rw [count_eq hN e (seen hd e)]
    cases e <;> simp [facing]
  · rw [last_eq hN .back (seen hd .back)]
    simp [facing]

/-- C56: `nth` and `nth_back` give the character `n` places from the end they count from and remove it
with those before it; with too few characters left they give `None` and remove all. -/
theorem C56_nth (e : End) (n : Nat) (d : Drain N) (cs : List Char) (hd : Holds d.inner cs) :
    ∃ d', (nth e n : M (Drain N) ε _) d = (.ok (facing e cs)[n]?, d') ∧
      Holds d'.inner (facing e ((facing e cs).drop (n + 1))) :=
  nth_eq ValidCapacity.le e n _ d (seen hd e)

/-- C56: `advance_by` and `advance_back_by` remove up to `n` characters and say how many were missing. -/
theorem C56_advance_by (e : End) (n : Nat) (d : Drain N) (cs : List Char) (hd : Holds d.inner cs) :
    ∃ d', (advanceBy e n : M (Drain N) ε _) d =
      (.ok (if n ≤ cs.length then .ok () else .error (n - cs.length)), d') ∧
      Holds d'.inner (facing e ((facing e cs).drop n)) := by
  obtain ⟨d', e', h⟩ := advanceBy_eq (ε := ε) ValidCapacity.le e n _ d (seen hd e)
  refine ⟨d', ?_, h⟩
  rw [e', show (facing e cs).length = cs.length by cases e <;> simp [facing]]

example : (facing .back ['h', 'é', ' '])[1]? = some 'é' ∧
    facing .back ((facing .back ['h', 'é', ' ']).drop 2) = ['h'] := ⟨rfl, rfl⟩

/-- C56: searches look at the characters in order up to the one that decides, which is removed with those
before it; if the closure panics, the characters after the one it panicked at are left. -/
theorem C56_search (e : End) (p : Char → Option Bool) (d : Drain N) (cs : List Char) (hd : Holds d.inner cs) :
    ((∀ c ∈ cs, p c = some false) →
      (∃ d', (find e p : M (Drain N) ε _) d = (.ok none, d') ∧ Holds d'.inner []) ∧
      (∃ d', (any e p : M (Drain N) ε _) d = (.ok false, d') ∧ Holds d'.inner []) ∧
      (∃ d', (position e p : M (Drain N) ε _) d = (.ok none, d') ∧ Holds d'.inner [])) ∧
    ((∀ c ∈ cs, p c = some true) →
      ∃ d', (all e p : M (Drain N) ε _) d = (.ok true, d') ∧ Holds d'.inner []) ∧
    (∀ pre c post, facing e cs = pre ++ c :: post → (∀ x ∈ pre, p x = some false) →
      (p c = some true →
        (∃ d', (find e p : M (Drain N) ε _) d = (.ok (some c), d') ∧ Holds d'.inner (facing e post)) ∧
        (∃ d', (any e p : M (Drain N) ε _) d = (.ok true, d') ∧ Holds d'.inner (facing e post)) ∧
        (∃ d', (position e p : M (Drain N) ε _) d = (.ok (some pre.length), d') ∧ Holds d'.inner (facing e post))) ∧
      (p c = none →
        (∃ d', (find e p : M (Drain N) ε _) d = (.panic, d') ∧ Holds d'.inner (facing e post)) ∧
        (∃ d', (any e p : M (Drain N) ε _) d = (.panic, d') ∧ Holds d'.inner (facing e post)) ∧
        (∃ d', (position e p : M (Drain N) ε _) d = (.panic, d') ∧ Holds d'.inner (facing e post)))) ∧
    (∀ pre c post, facing e cs = pre ++ c :: post → (∀ x ∈ pre, p x = some true) →
      (p c = some false →
        ∃ d', (all e p : M (Drain N) ε _) d = (.ok false, d') ∧ Holds d'.inner (facing e post)) ∧
      (p c = none →
        ∃ d', (all e p : M (Drain N) ε _) d = (.panic, d') ∧ Holds d'.inner (facing e post))) := by
  have hN := ValidCapacity.le (N := N)
  have hd := seen hd e
  have hl := length_le hN e hd
  have hu := usizeMax_ge
  have mem : ∀ c, c ∈ facing e cs → c ∈ cs := by cases e <;> simp [facing]
  refine ⟨fun h => ⟨?_, ?_, ?_⟩, fun h => ?_, fun pre c post hcs h => ⟨fun hc => ⟨?_, ?_, ?_⟩, fun hc => ⟨?_, ?_, ?_⟩⟩,
    fun pre c post hcs h => ⟨fun hc => ?_, fun hc => ?_⟩⟩
  · exact search_none hN e _ (fun _ => ()) (fun _ => none) some _ (fun i c _ hc => by simp only [h c (mem c hc)]) d hd
  · exact search_none hN e _ (fun _ => ()) (fun _ => false) (fun _ => true) _
      (fun i c _ hc => by simp only [h c (mem c hc)]) d hd
  · exact search_none hN e _ (fun i => i) (fun _ => none) some _
      (fun i c hi hc => by simp only [h c (mem c hc)]; rw [if_pos (by omega)]) d hd
  · exact search_none hN e _ (fun _ => ()) (fun _ => true) (fun _ => false) _
      (fun i c _ hc => by simp only [h c (mem c hc)]) d hd
  all_goals rw [hcs] at hd hl
  all_goals simp only [List.length_append, List.length_cons] at hl
  · exact (search_stop hN e _ (fun _ => ()) (fun _ => none) some pre post c
      (fun i c _ hc => by simp only [h c hc]) d hd).1 c (by simp only [hc])
  · exact (search_stop hN e _ (fun _ => ()) (fun _ => false) (fun _ => true) pre post c
      (fun i c _ hc => by simp only [h c hc]) d hd).1 () (by simp only [hc])
  · exact (search_stop hN e _ (fun i => i) (fun _ => none) some pre post c
      (fun i c hi hc => by simp only [h c hc]; rw [if_pos (by omega)]) d hd).1 _ (by simp only [hc])
  · exact (search_stop hN e _ (fun _ => ()) (fun _ => none) some pre post c
      (fun i c _ hc => by simp only [h c hc]) d hd).2 (by simp only [hc])
  · exact (search_stop hN e _ (fun _ => ()) (fun _ => false) (fun _ => true) pre post c
      (fun i c _ hc => by simp only [h c hc]) d hd).2 (by simp only [hc])
  · exact (search_stop hN e _ (fun i => i) (fun _ => none) some pre post c
      (fun i c hi hc => by simp only [h c hc]; rw [if_pos (by omega)]) d hd).2 (by simp only [hc])
  · exact (search_stop hN e _ (fun _ => ()) (fun _ => true) (fun _ => false) pre post c
      (fun i c _ hc => by simp only [h c hc]) d hd).1 () (by simp only [hc])
  · exact (search_stop hN e _ (fun _ => ()) (fun _ => true) (fun _ => false) pre post c
      (fun i c _ hc => by simp only [h c hc]) d hd).2 (by simp only [hc])

/-- The hypotheses of the last two parts. -/
example : facing .back ['h', 'é', ' ', '!'] = ['!', ' '] ++ 'é' :: ['h'] ∧
    ∀ x ∈ ['!', ' '], (fun c => some (c = 'é') : Char → Option Bool) x = some false := by decide

/-- C56: `reduce` starts from the first character; `max` and `min` give the greatest and the least
character by code point, and `None` only if there is none. -/
theorem C56_reduce (e : End) (d : Drain N) (cs : List Char) (hd : Holds d.inner cs) :
    (∀ (f : Char → Char → Option Char) c l, facing e cs = c :: l →
      (∀ x, l.foldlM f c = some x → (reduce e f d : Res ε _) = .ok (some x)) ∧
      (l.foldlM f c = none → (reduce e f d : Res ε _) = .panic)) ∧
    (cs = [] → (∀ f, (reduce e f d : Res ε _) = .ok none) ∧ (Drain.max e d : Res ε _) = .ok none ∧
      (Drain.min e d : Res ε _) = .ok none) ∧
    (cs ≠ [] →
      (∃ m ∈ cs, (Drain.max e d : Res ε _) = .ok (some m) ∧ ∀ c ∈ cs, c.val ≤ m.val) ∧
      (∃ m ∈ cs, (Drain.min e d : Res ε _) = .ok (some m) ∧ ∀ c ∈ cs, m.val ≤ c.val)) := by
  have hN := ValidCapacity.le (N := N)
  refine ⟨fun f c l h => ?_, ?_, fun hne => ?_⟩
  · rw [reduce_cons hN e f c l d (by rw [← h]; exact seen hd e)]
    exact ⟨fun x h => by rw [h], fun h => by rw [h]⟩
  · rintro rfl
    exact ⟨fun f => reduce_nil hN e f d hd, reduce_nil hN e _ d hd, reduce_nil hN e _ d hd⟩
  · have mem : ∀ c, c ∈ facing e cs ↔ c ∈ cs := by cases e <;> simp [facing]
    cases h : facing e cs with
    | nil => exact (hne (by rw [← facing_facing e cs, h]; cases e <;> rfl)).elim
    | cons c l =>
      rw [h] at mem
      constructor
      · obtain ⟨h1, h2⟩ := foldl_pick (fun a b => a.val ≤ b.val) (fun _ => UInt32.le_refl _)
          (fun _ _ _ => UInt32.le_trans) (fun x y => if y.val < x.val then x else y)
          (fun x y => by
            split
            · rename_i hlt; exact ⟨.inl rfl, UInt32.le_refl _, UInt32.le_of_lt hlt⟩
            · rename_i hlt; exact ⟨.inr rfl, UInt32.not_lt.mp hlt, UInt32.le_refl _⟩) l c
        refine ⟨_, (mem _).mp h1, ?_, fun x hx => h2 x ((mem x).mpr hx)⟩
        unfold Drain.max
        rw [reduce_cons hN e _ c l d (by rw [← h]; exact seen hd e),
          foldlM_total (fun x y => if y.val < x.val then x else y)]
      · obtain ⟨h1, h2⟩ := foldl_pick (fun a b => b.val ≤ a.val) (fun _ => UInt32.le_refl _)
          (fun _ _ _ h1 h2 => UInt32.le_trans h2 h1) (fun x y => if y.val < x.val then y else x)
          (fun x y => by
            split
            · rename_i hlt; exact ⟨.inr rfl, UInt32.le_of_lt hlt, UInt32.le_refl _⟩
            · rename_i hlt; exact ⟨.inl rfl, UInt32.le_refl _, UInt32.not_lt.mp hlt⟩) l c
        refine ⟨_, (mem _).mp h1, ?_, fun x hx => h2 x ((mem x).mpr hx)⟩
        unfold Drain.min
        rw [reduce_cons hN e _ c l d (by rw [← h]; exact seen hd e),
          foldlM_total (fun x y => if y.val < x.val then y else x)]

example : ∃ m ∈ ['h', 'é', ' '], ∀ c ∈ ['h', 'é', ' '], c.val ≤ m.val := ⟨'é', by simp, by decide⟩

omit [ValidCapacity N] in
/-- C56: `size_hint` is the default `(0, None)`: true bounds of what is left, but no information. -/
theorem C56_size_hint (d : Drain N) (cs : List Char) (_ : Holds d.inner cs) :
    d.sizeHint.1 ≤ cs.length ∧ (∀ m, d.sizeHint.2 = some m → cs.length ≤ m) ∧ d.sizeHint = (0, none) :=
  ⟨Nat.zero_le _, nofun, rfl⟩

end Verif
