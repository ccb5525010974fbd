import Verif.Spec.DrainIter
import Verif.Proofs.Endless

/-! # Core's default iterator methods on `Drain` -/

namespace Verif.ArrayString.Drain
open Verif Spec Lean.Order

variable {N : Nat} {ε α β γ κ : Type}

theorem facing_facing (e : End) (cs : List Char) : facing e (facing e cs) = cs := by
  cases e <;> simp [facing]

theorem pull_cons (hN : N ≤ 255) (e : End) {d : Drain N} {c : Char} {l : List Char}
    (hd : Holds d.inner (facing e (c :: l))) :
    ∃ d' : Drain N, (pull e : M (Drain N) ε _) d = (.ok (some c), d') ∧ Holds d'.inner (facing e l) := by
  cases e with
  | front => exact drain_next_cons hN hd
  | back =>
    simp only [facing, List.reverse_cons] at hd
    exact drain_nextBack_snoc hd

theorem pull_nil (hN : N ≤ 255) (e : End) {d : Drain N} (hd : Holds d.inner []) :
    (pull e : M (Drain N) ε _) d = (.ok none, d) := by
  cases e with
  | front => exact drain_next_nil hN hd
  | back => exact drain_nextBack_nil hd

theorem takeEnd_facing (e : End) (c : Char) (l : List Char) :
    takeEnd e (facing e (c :: l)) = (some c, facing e l) := by
  cases e <;> simp [takeEnd, facing]

theorem takeEnd_nil (e : End) : takeEnd e ([] : List Char) = (none, []) := by cases e <;> rfl

theorem pull_takeEnd (hN : N ≤ 255) (e : End) {d : Drain N} {cs : List Char} (hd : Holds d.inner cs) :
    ∃ d' : Drain N, (pull e : M (Drain N) ε _) d = (.ok (takeEnd e cs).1, d') ∧ Holds d'.inner (takeEnd e cs).2 := by
  cases h : facing e cs with
  | nil =>
    have : cs = [] := by rw [← facing_facing e cs, h]; cases e <;> rfl
    subst this
    rw [takeEnd_nil]
    exact ⟨d, pull_nil hN e hd, hd⟩
  | cons c l =>
    rw [← facing_facing e cs, h] at hd ⊢
    rw [takeEnd_facing]
    exact pull_cons hN e hd

theorem client_done (hN : N ≤ 255) (c : κ → Move κ α) (q : κ) (cs : List Char) (r : α × List Char)
    (h : serve c q cs = some r) :
    ∀ d : Drain N, Holds d.inner cs → ∃ d', (client c q d : Res ε _) = .ok (r.1, d') ∧ Holds d'.inner r.2 := by
  refine serve.partial_correctness c (fun q cs r => ∀ d : Drain N, Holds d.inner cs →
    ∃ d', (client c q d : Res ε _) = .ok (r.1, d') ∧ Holds d'.inner r.2) ?_ q cs r h
  intro f ih q cs r h d hd
  rw [client]
  split at h
  · rename_i a e
    simp only [e]
    cases h
    exact ⟨d, rfl, hd⟩
  · rename_i e k hc
    obtain ⟨d', e', hd'⟩ := pull_takeEnd (ε := ε) hN e hd
    simp only [hc, e']
    exact ih _ _ _ h d' hd'
  · rename_i k hc
    have : (d.asStr : Res ε Bytes) = .ok (utf8 cs) := hd.asStr
    simp only [hc, this]
    exact ih _ _ _ h d hd

theorem client_endless (hN : N ≤ 255) (c : κ → Move κ α) (q : κ) (d : Drain N) :
    (∃ cs, Holds d.inner cs ∧ serve c q cs = none) → (client c q d : Res ε (α × Drain N)) = .diverge := by
  refine client.fixpoint_induct c (fun f => ∀ q d, (∃ cs, Holds d.inner cs ∧ serve c q cs = none) →
    f q d = .diverge) (admissible_diverge _) ?_ q d
  rintro f ih q d ⟨cs, hd, h⟩
  rw [serve] at h
  split at h
  · cases h
  · rename_i e k hc
    obtain ⟨d', e', hd'⟩ := pull_takeEnd (ε := ε) hN e hd
    simp only [hc, e']
    exact ih _ _ ⟨_, hd', h⟩
  · rename_i k hc
    have : (d.asStr : Res ε Bytes) = .ok (utf8 cs) := hd.asStr
    simp only [hc, this]
    exact ih _ _ ⟨_, hd, h⟩

theorem tryFold_eq (hN : N ≤ 255) (e : End) (f : β → Char → Flow γ β) (acc : β) (l : List Char) (d : Drain N)
    (hd : Holds d.inner (facing e l)) :
    ∃ d', (tryFold e f acc d : Res ε _) = .ok ((foldFlow f acc l).1, d') ∧
      Holds d'.inner (facing e (foldFlow f acc l).2) := by
  induction l generalizing acc d with
  | nil =>
    have hd' : Holds d.inner [] := by cases e <;> exact hd
    rw [tryFold, pull_nil hN e hd']
    exact ⟨d, rfl, hd⟩
  | cons c l ih =>
    obtain ⟨d', e', hd'⟩ := pull_cons (ε := ε) hN e hd
    rw [tryFold, e', foldFlow]
    cases hf : f acc c with
    | go b => simp only [hf]; exact ih b d' hd'
    | stop x => simp only [hf]; exact ⟨d', rfl, hd'⟩
    | panic => simp only [hf]; exact ⟨d', rfl, hd'⟩

theorem fold_eq (hN : N ≤ 255) (e : End) (f : β → Char → Option β) (acc : β) (l : List Char) (d : Drain N)
    (hd : Holds d.inner (facing e l)) :
    (fold e f acc d : Res ε β) = match l.foldlM f acc with
      | some b => .ok b
      | none => .panic := by
  induction l generalizing acc d with
  | nil =>
    have hd' : Holds d.inner [] := by cases e <;> exact hd
    rw [fold, pull_nil hN e hd']
    rfl
  | cons c l ih =>
    obtain ⟨d', e', hd'⟩ := pull_cons (ε := ε) hN e hd
    rw [fold, e', List.foldlM_cons]
    cases hf : f acc c with
    | some b => simp only [hf]; exact ih b d' hd'
    | none => simp only [hf]; rfl

theorem advanceBy_eq (hN : N ≤ 255) (e : End) (n : Nat) (l : List Char) (d : Drain N)
    (hd : Holds d.inner (facing e l)) :
    ∃ d', (advanceBy e n : M (Drain N) ε _) d =
      (.ok (if n ≤ l.length then .ok () else .error (n - l.length)), d') ∧ Holds d'.inner (facing e (l.drop n)) := by
  induction n generalizing l d with
  | zero => exact ⟨d, by simp [advanceBy], hd⟩
  | succ n ih =>
    cases l with
    | nil =>
      have hd' : Holds d.inner [] := by cases e <;> exact hd
      refine ⟨d, ?_, by simpa using hd⟩
      rw [advanceBy, M.bind_apply, pull_nil hN e hd']
      rfl
    | cons c l =>
      obtain ⟨d', e', hd'⟩ := pull_cons (ε := ε) hN e hd
      obtain ⟨d2, e2, h2⟩ := ih l d' hd'
      refine ⟨d2, ?_, by simpa using h2⟩
      rw [advanceBy, M.bind_apply, e']
      simp only [e2, List.length_cons, Nat.add_le_add_iff_right, Nat.add_sub_add_right]

theorem nth_eq (hN : N ≤ 255) (e : End) (n : Nat) (l : List Char) (d : Drain N) (hd : Holds d.inner (facing e l)) :
    ∃ d', (nth e n : M (Drain N) ε _) d = (.ok l[n]?, d') ∧ Holds d'.inner (facing e (l.drop (n + 1))) := by
  obtain ⟨d', e', hd'⟩ := advanceBy_eq (ε := ε) hN e n l d hd
  unfold nth
  rw [M.bind_apply, e']
  by_cases hn : n ≤ l.length
  · simp only [if_pos hn]
    cases h : l.drop n with
    | nil =>
      have hl : l.length ≤ n := by simpa using h
      rw [h] at hd'
      have hd2 : Holds d'.inner [] := by cases e <;> exact hd'
      refine ⟨d', ?_, ?_⟩
      · rw [pull_nil hN e hd2, List.getElem?_eq_none hl]
      · rw [List.drop_eq_nil_of_le (by omega)]; exact hd'
    | cons c r =>
      rw [h] at hd'
      obtain ⟨d2, e2, h2⟩ := pull_cons (ε := ε) hN e hd'
      refine ⟨d2, ?_, ?_⟩
      · rw [e2]
        have : l[n]? = some c := by
          have := List.getElem?_drop (xs := l) (i := n) (j := 0)
          rw [h] at this
          simpa using this.symm
        rw [this]
      · have : l.drop (n + 1) = r := by
          have := List.drop_drop (i := 1) (j := n) (l := l)
          rw [h] at this
          simpa using this.symm
        rw [this]; exact h2
  · simp only [if_neg hn]
    refine ⟨d', ?_, ?_⟩
    · rw [List.getElem?_eq_none (by omega)]; rfl
    · rw [List.drop_eq_nil_of_le (by omega)]
      rw [List.drop_eq_nil_of_le (by omega)] at hd'
      exact hd'

theorem byRef_tryFold (hN : N ≤ 255) (e : End) (f : β → Char → Flow γ β) (acc : β) (l : List Char) (d : Drain N)
    (hd : Holds d.inner (facing e l)) :
    ∃ d', (byRef (tryFold e f acc) : M (Drain N) ε _) d = (.ok (foldFlow f acc l).1, d') ∧
      Holds d'.inner (facing e (foldFlow f acc l).2) := by
  obtain ⟨d', e', hd'⟩ := tryFold_eq (ε := ε) hN e f acc l d hd
  exact ⟨d', by unfold byRef; rw [e'], hd'⟩

/-- A search: goes on over `pre`, and then does not. -/
theorem foldFlow_skip {f : β → Char → Flow γ β} (b : Nat → β) (pre post : List Char)
    (h : ∀ i c, i < pre.length → c ∈ pre → f (b i) c = .go (b (i + 1))) :
    foldFlow f (b 0) (pre ++ post) = foldFlow f (b pre.length) post := by
  induction pre generalizing b with
  | nil => rfl
  | cons c pre ih =>
    rw [List.cons_append, foldFlow, h 0 c (by simp) (by simp)]
    exact ih (fun i => b (i + 1)) fun i c hi hc => h (i + 1) c (by simpa using hi) (.tail _ hc)

/-- Nothing stops the search. -/
theorem search_none (hN : N ≤ 255) (e : End) (f : β → Char → Flow γ β) (b : Nat → β) (go : β → α) (stop : γ → α)
    (l : List Char) (h : ∀ i c, i < l.length → c ∈ l → f (b i) c = .go (b (i + 1))) (d : Drain N)
    (hd : Holds d.inner (facing e l)) :
    ∃ d', (do let r ← byRef (tryFold e f (b 0)); unwound r go stop : M (Drain N) ε α) d =
      (.ok (go (b l.length)), d') ∧ Holds d'.inner [] := by
  obtain ⟨d', e', hd'⟩ := byRef_tryFold (ε := ε) hN e f (b 0) l d hd
  have := foldFlow_skip b l [] h
  rw [List.append_nil] at this
  rw [this] at e' hd'
  refine ⟨d', ?_, by cases e <;> exact hd'⟩
  rw [M.bind_apply, e']
  rfl

/-- The search is stopped at `c`. -/
theorem search_stop (hN : N ≤ 255) (e : End) (f : β → Char → Flow γ β) (b : Nat → β) (go : β → α) (stop : γ → α)
    (pre post : List Char) (c : Char) (h : ∀ i c, i < pre.length → c ∈ pre → f (b i) c = .go (b (i + 1)))
    (d : Drain N) (hd : Holds d.inner (facing e (pre ++ c :: post))) :
    (∀ x, f (b pre.length) c = .stop x →
      ∃ d', (do let r ← byRef (tryFold e f (b 0)); unwound r go stop : M (Drain N) ε α) d = (.ok (stop x), d') ∧
        Holds d'.inner (facing e post)) ∧
    (f (b pre.length) c = .panic →
      ∃ d', (do let r ← byRef (tryFold e f (b 0)); unwound r go stop : M (Drain N) ε α) d = (.panic, d') ∧
        Holds d'.inner (facing e post)) := by
  obtain ⟨d', e', hd'⟩ := byRef_tryFold (ε := ε) hN e f (b 0) _ d hd
  rw [foldFlow_skip b pre (c :: post) h, foldFlow] at e' hd'
  refine ⟨fun x hx => ⟨d', ?_, ?_⟩, fun hx => ⟨d', ?_, ?_⟩⟩
  · rw [hx] at e'; rw [M.bind_apply, e']; rfl
  · rw [hx] at hd'; exact hd'
  · rw [hx] at e'; rw [M.bind_apply, e']; rfl
  · rw [hx] at hd'; exact hd'

theorem length_le (hN : N ≤ 255) (e : End) {d : Drain N} {l : List Char} (hd : Holds d.inner (facing e l)) :
    l.length ≤ 255 := by
  have h1 := hd.le
  have h2 : ∀ cs : List Char, cs.length ≤ byteLen cs := by
    intro cs
    induction cs with
    | nil => simp
    | cons c cs ih =>
      have := Char.utf8Size_pos c
      simp only [byteLen_cons, List.length_cons]
      omega
  have h3 := h2 (facing e l)
  have h4 : (facing e l).length = l.length := by cases e <;> simp [facing]
  omega

theorem count_eq (hN : N ≤ 255) (e : End) {d : Drain N} {l : List Char} (hd : Holds d.inner (facing e l)) :
    (count e d : Res ε Nat) = .ok l.length := by
  have hl := length_le hN e hd
  have hu := usizeMax_ge
  have key : ∀ (l : List Char) (n : Nat), n + l.length ≤ 255 →
      l.foldlM (fun n (_ : Char) => if n + 1 ≤ usizeMax then some (n + 1) else if profile.overflowChecks then none else some 0) n = some (n + l.length) := by
    intro l
    induction l with
    | nil => intro n _; rfl
    | cons c l ih =>
      intro n hn
      simp only [List.length_cons] at hn
      rw [List.foldlM_cons, if_pos (by omega)]
      show l.foldlM _ (n + 1) = _
      rw [ih (n + 1) (by omega), List.length_cons, Nat.add_assoc, Nat.add_comm 1]
  unfold count
  rw [fold_eq hN e _ _ l d hd, key l 0 (by omega)]
  simp

theorem foldlM_total (f : β → Char → β) (b : β) (l : List Char) :
    l.foldlM (fun b c => some (f b c)) b = some (l.foldl f b) := by
  induction l generalizing b with
  | nil => rfl
  | cons c l ih => exact ih (f b c)

theorem last_eq (hN : N ≤ 255) (e : End) {d : Drain N} {l : List Char} (hd : Holds d.inner (facing e l)) :
    (last e d : Res ε _) = .ok l.getLast? := by
  have key : ∀ (l : List Char) (o : Option Char), l.foldl (fun _ c => some c) o = l.getLast?.or o := by
    intro l
    induction l with
    | nil => intro o; rfl
    | cons c l ih =>
      intro o
      rw [List.foldl_cons, ih]
      cases l <;> simp [List.getLast?_cons_cons]
      rw [List.getLast?_eq_some_getLast (by simp)]
      rfl
  unfold last
  rw [fold_eq hN e _ _ l d hd, foldlM_total (fun _ c => some c), key]
  simp

theorem collectVec_eq (hN : N ≤ 255) (e : End) {d : Drain N} {l : List Char} (hd : Holds d.inner (facing e l)) :
    (collectVec e d : Res ε _) = .ok l := by
  have key : ∀ (l v : List Char), l.foldl (fun v c => v ++ [c]) v = v ++ l := by
    intro l
    induction l with
    | nil => simp
    | cons c l ih => intro v; rw [List.foldl_cons, ih]; simp
  unfold collectVec
  rw [fold_eq hN e _ _ l d hd, foldlM_total (fun v c => v ++ [c]), key]
  rfl

theorem collectString_eq (hN : N ≤ 255) (e : End) {d : Drain N} {l : List Char} (hd : Holds d.inner (facing e l)) :
    (collectString e d : Res ε _) = .ok (utf8 l) := by
  have key : ∀ (l : List Char) (v : Bytes), l.foldl (fun v c => v ++ Str.encodeUtf8 c) v = v ++ utf8 l := by
    intro l
    induction l with
    | nil => simp [utf8]
    | cons c l ih =>
      intro v
      rw [List.foldl_cons, ih, List.append_assoc]
      rfl
  unfold collectString
  rw [fold_eq hN e _ _ l d hd, foldlM_total (fun v c => v ++ Str.encodeUtf8 c), key]
  rfl

theorem reduce_cons (hN : N ≤ 255) (e : End) (f : Char → Char → Option Char) (c : Char) (l : List Char) (d : Drain N)
    (hd : Holds d.inner (facing e (c :: l))) :
    (reduce e f d : Res ε _) = match l.foldlM f c with
      | some b => .ok (some b)
      | none => .panic := by
  obtain ⟨d', e', hd'⟩ := pull_cons (ε := ε) hN e hd
  unfold reduce
  simp only [e', fold_eq hN e f c l d' hd']
  cases l.foldlM f c <;> rfl

theorem reduce_nil (hN : N ≤ 255) (e : End) (f : Char → Char → Option Char) (d : Drain N) (hd : Holds d.inner []) :
    (reduce e f d : Res ε _) = .ok none := by
  unfold reduce
  simp only [pull_nil hN e hd]

/-- Picking one of two keeps a member that is as good as all seen. -/
theorem foldl_pick (le : Char → Char → Prop) (refl : ∀ a, le a a) (trans : ∀ a b c, le a b → le b c → le a c)
    (f : Char → Char → Char) (hf : ∀ x y, (f x y = x ∨ f x y = y) ∧ le x (f x y) ∧ le y (f x y)) (l : List Char)
    (c : Char) : l.foldl f c ∈ c :: l ∧ ∀ x ∈ c :: l, le x (l.foldl f c) := by
  induction l generalizing c with
  | nil => exact ⟨by simp, fun x hx => by rw [List.mem_singleton] at hx; subst hx; exact refl _⟩
  | cons a l ih =>
    obtain ⟨h1, h2⟩ := ih (f c a)
    obtain ⟨h3, h4, h5⟩ := hf c a
    have h6 := h2 (f c a) (.head _)
    refine ⟨?_, ?_⟩
    · rw [List.foldl_cons]
      rcases List.mem_cons.mp h1 with h | h
      · rw [h]
        rcases h3 with h3 | h3 <;> rw [h3] <;> simp
      · exact .tail _ (.tail _ h)
    · intro x hx
      rw [List.foldl_cons]
      rcases List.mem_cons.mp hx with rfl | hx
      · exact trans _ _ _ h4 h6
      · rcases List.mem_cons.mp hx with rfl | hx
        · exact trans _ _ _ h5 h6
        · exact h2 x (.tail _ hx)

end Verif.ArrayString.Drain
