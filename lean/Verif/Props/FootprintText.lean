import Verif.Proofs.FootprintText
import Verif.Props.Footprint

/-!
# The reads of a call cover what it uses of its text

C58, for the text arguments.  `C58_reads` says that what a call does depends on bytes of the string only
that it has read; here the same is proved of the texts that are passed to the calls.
-/

namespace Verif
open Spec Borrow

variable {N : Nat} {R : Rules}

theorem ops_text {caller arg : Tag} {K : Nat → Prop} {ops ops' : List Op} {w w' : World (traced R) N}
    {rs : List (Res Failure Out)} (hlen : Full w.str) (h : Borrow.runOps caller arg ops w = (rs, w'))
    (hr : ∀ r ∈ rs, Settled r) (hk : ∀ l, (marks w' (N + 1 + l)).read = true → K l)
    (h2 : OtherTexts (Matches K) ops ops') : Borrow.runOps caller arg ops' w = (rs, w') := by
  induction h2 generalizing w rs with
  | nil => exact h
  | @cons op op' ops ops' ho _ ih =>
    simp only [Borrow.runOps] at h
    generalize e1 : Borrow.exec caller arg op w = x at h
    obtain ⟨r, v⟩ := x
    dsimp only at h
    generalize e2 : Borrow.runOps caller arg ops v = y at h
    obtain ⟨rs', v'⟩ := y
    cases h
    have s1 := hr _ List.mem_cons_self
    have s2 : ∀ r ∈ rs', Settled r := fun r h => hr r (List.mem_cons_of_mem _ h)
    obtain ⟨c1, -, -⟩ := at_exec caller arg op hlen r v e1 s1
    obtain ⟨c2, -⟩ := ops_cover c1.full e2 s2
    obtain ⟨r', e3, h3⟩ := like_exec ho w r v e1 s1 fun l hl => by
      rw [← Bool.not_eq_true]
      exact fun c => hl (hk l (c2.read _ c))
    simp only [Borrow.runOps, e3, sameOut_eq h3, ih c1.full e2 s2]

/-- C58, for any rules, any memory and any bytes in the string: if the calls of another history are the same
up to their texts, and the texts have the same lengths, and the same bytes where the history reads, then
the other history gives the same results, leaves the same string, and uses tags the same way. -/
theorem C58_text (caller arg : Tag) (w : World R N) (ops ops' : List Op) (rs : List (Res Failure Out))
    (w' : World (traced R) N) (hlen : w.str.array.length = N)
    (h : Borrow.runOps caller arg ops (unmarked w) = (rs, w'))
    (hub : ∀ r ∈ rs, r ≠ .ub ∧ r ≠ .diverge)
    (h2 : OtherTexts (fun t t' => byteLen t' = byteLen t ∧
      ∀ l, (marks w' (N + 1 + l)).read = true → (utf8 t')[l]? = (utf8 t)[l]?) ops ops') :
    Borrow.runOps caller arg ops' (unmarked w) = (rs, w') :=
  ops_text (w := unmarked w) hlen h hub (fun _ h => h) h2

/-- C58, both together: another string and other texts. -/
theorem C58_all (caller arg : Tag) (w : World R N) (ops ops' : List Op) (rs : List (Res Failure Out))
    (w' : World (traced R) N) (hlen : w.str.array.length = N)
    (h : Borrow.runOps caller arg ops (unmarked w) = (rs, w'))
    (hub : ∀ r ∈ rs, r ≠ .ub ∧ r ≠ .diverge)
    (s2 : ArrayString N) (hlen2 : s2.array.length = N)
    (hs : ∀ l ≤ N, (marks w' l).read = true → byteAt s2 l = byteAt w.str l)
    (h2 : OtherTexts (fun t t' => byteLen t' = byteLen t ∧
      ∀ l, (marks w' (N + 1 + l)).read = true → (utf8 t')[l]? = (utf8 t)[l]?) ops ops') :
    ∃ s2', Borrow.runOps caller arg ops' (unmarked { w with str := s2 }) = (rs, { w' with str := s2' }) ∧
      ∀ l ≤ N, ((marks w' l).written = true ∨ byteAt s2 l = byteAt w.str l) → byteAt s2' l = byteAt w'.str l := by
  obtain ⟨s2', e, h3⟩ := C58_reads caller arg w ops rs w' hlen h hub s2 hlen2 hs
  exact ⟨s2', C58_text caller arg { w with str := s2 } ops ops' rs _ hlen2 e hub h2, h3⟩

theorem items_text {α : Type} {P : α → α → Prop} {l l' : Script α} (h : OtherItems P l l') :
    ∀ a' ∈ l'.filterMap id, ∃ a ∈ l.filterMap id, P a a' := by
  induction h with
  | nil => simp
  | panic _ ih => simpa using ih
  | item h _ ih =>
    intro x hx
    simp only [List.filterMap_cons_some (f := id) rfl, List.mem_cons] at hx ⊢
    rcases hx with rfl | hx
    · exact ⟨_, .inl rfl, h⟩
    · obtain ⟨a, ha, hp⟩ := ih x hx
      exact ⟨a, .inr ha, hp⟩

theorem other_texts {P : List Char → List Char → Prop} {op op' : Op} (h : OtherText P op op') :
    ∀ t' ∈ texts op', ∃ t ∈ texts op, t = t' ∨ P t t' := by
  cases h with
  | same => exact fun t h => ⟨t, h, .inl rfl⟩
  | tryFromIterator h | collectStrs h | extendStrs h =>
    intro t' ht
    obtain ⟨a, ha, hp⟩ := items_text h t' ht
    exact ⟨a, ha, .inr hp⟩
  | fromIteratorTruncate h =>
    intro t' ht
    simp only [texts, List.mem_flatMap] at ht ⊢
    obtain ⟨p', hp', hm⟩ := ht
    obtain ⟨p, hp, h1, h2⟩ := items_text h p' hp'
    simp only [List.mem_cons, List.not_mem_nil, or_false] at hm
    rcases hm with rfl | rfl
    · exact ⟨p.1, ⟨p, hp, by simp⟩, .inr h1⟩
    · exact ⟨p.2, ⟨p, hp, by simp⟩, .inr h2⟩
  | writeFmt h =>
    intro t' ht
    obtain ⟨a, ha, hp⟩ := items_text h t' (by simpa [List.filterMap_map, texts] using ht)
    exact ⟨a, by simpa [List.filterMap_map, texts] using ha, .inr hp⟩
  | _ h =>
    intro t' ht
    simp only [texts, List.mem_singleton] at ht
    subst ht
    exact ⟨_, List.mem_singleton.2 rfl, .inr h⟩

theorem call_text [ValidCapacity N] {L : Laws R} {caller arg : Tag} {top : Nat} {w : World R N} {op op' : Op}
    (h : Ready L caller arg top w) (htop : N < top) (hs : Shape w.str)
    (ht : ∀ t ∈ texts op, N + 1 + byteLen t ≤ top) (hr : Settled (Verif.exec op w.str).1)
    (h2 : OtherText (fun t t' => byteLen t' = byteLen t ∧ ∀ l,
      (marks (Borrow.exec caller arg op (unmarked w)).2 (N + 1 + l)).read = true → (utf8 t')[l]? = (utf8 t)[l]?)
      op op') : Verif.exec op' w.str = Verif.exec op w.str := by
  obtain ⟨v, e1, s1, -⟩ := borrow_op h htop hs op ht
  have ht' : ∀ t ∈ texts op', N + 1 + byteLen t ≤ top := by
    intro t' h'
    obtain ⟨t, hm, he⟩ := other_texts h2 t' h'
    rcases he with rfl | he
    · exact ht _ hm
    · rw [he.1]; exact ht _ hm
  obtain ⟨v', e1', s1', -⟩ := borrow_op h htop hs op' ht'
  have er := er_exec (self := caller) (arg := arg) (op := op) (unmarked w)
  have er' := er_exec (self := caller) (arg := arg) (op := op') (unmarked w)
  rw [erase_unmarked] at er er'
  generalize e2 : Borrow.exec caller arg op (unmarked w) = x at er h2
  obtain ⟨r, x⟩ := x
  have k : (Verif.exec op w.str).1 = r := (Prod.mk.inj (e1.symm.trans er)).1
  obtain ⟨r', e3, h3⟩ := like_exec h2 (unmarked w) r x e2 (k ▸ hr) fun l hl => by
    rw [← Bool.not_eq_true]
    exact hl
  have e4 := er'.trans (congrArg (fun p => (p.1, erase p.2)) (e3.trans (congrArg (·, x) (sameOut_eq h3))))
  have e5 := (e1'.symm.trans e4).trans (er.symm.trans e1)
  have k1 := (Prod.mk.inj e5).1
  have k2 := congrArg World.str (Prod.mk.inj e5).2
  rw [s1, s1'] at k2
  exact Prod.ext k1 k2

/-- C58, Stacked Borrows: the reads of a call with tags cover what the call without tags uses of its text. -/
theorem C58_text_stacked [ValidCapacity N] (caller arg : Tag) (top : Nat) (w : World Stacked.rules N) (op op' : Op)
    (htop : N < top) (h : StackedReady caller arg top w) (hlen : w.str.array.length = N)
    (hl : w.str.size.toNat ≤ N) (ht : ∀ t ∈ texts op, N + 1 + byteLen t ≤ top)
    (hub : (Verif.exec op w.str).1 ≠ .ub) (hdiv : (Verif.exec op w.str).1 ≠ .diverge)
    (h2 : OtherText (fun t t' => byteLen t' = byteLen t ∧ ∀ l,
      (marks (Borrow.exec caller arg op (unmarked w)).2 (N + 1 + l)).read = true → (utf8 t')[l]? = (utf8 t)[l]?)
      op op') : Verif.exec op' w.str = Verif.exec op w.str :=
  call_text (stackedReady_iff.1 h) htop ⟨hlen, hl⟩ ht ⟨hub, hdiv⟩ h2

/-- C58, Tree Borrows. -/
theorem C58_text_tree [ValidCapacity N] (caller arg : Tag) (top : Nat) (w : World Tree.rules N) (op op' : Op)
    (htop : N < top) (h : TreeReady caller arg top w) (hlen : w.str.array.length = N)
    (hl : w.str.size.toNat ≤ N) (ht : ∀ t ∈ texts op, N + 1 + byteLen t ≤ top)
    (hub : (Verif.exec op w.str).1 ≠ .ub) (hdiv : (Verif.exec op w.str).1 ≠ .diverge)
    (h2 : OtherText (fun t t' => byteLen t' = byteLen t ∧ ∀ l,
      (marks (Borrow.exec caller arg op (unmarked w)).2 (N + 1 + l)).read = true → (utf8 t')[l]? = (utf8 t)[l]?)
      op op') : Verif.exec op' w.str = Verif.exec op w.str :=
  call_text (treeReady_iff.1 h) htop ⟨hlen, hl⟩ ht ⟨hub, hdiv⟩ h2

/-- The addresses of the text that were read, counted from its beginning. -/
def textRead (n : Nat) (w : World (traced R) N) : List Nat :=
  (List.range n).filter fun l => (marks w (N + 1 + l)).read

/-- Calls that do not read all of their texts, since their indices are wrong. -/
def longTexts : List Op :=
  [.insertStrTruncate 9 ['a', 'é', '€', 'b'], .truncate 2, .replaceRange (.range 3 1) ['x', 'y', 'z'],
   .insertStrTruncate 5 ['a', 'b', 'c', 'd', 'e', 'f', 'g'], .asStr]

/-- The same with other texts: `'₩'` has its first two bytes in common with `'€'`. -/
def longTexts' : List Op :=
  [.insertStrTruncate 9 ['x', 'ß', '₩', 'c'], .truncate 2, .replaceRange (.range 3 1) ['ü', '!'],
   .insertStrTruncate 5 ['é', 'y', 'd', 'e', 'u', 'v'], .asStr]

theorem match_upTo {K : Nat → Prop} {t t' : List Char} (n : Nat) (h : byteLen t' = byteLen t) (hn : byteLen t ≤ n)
    (hk : ∀ l < n, K l → (utf8 t')[l]? = (utf8 t)[l]?) :
    byteLen t' = byteLen t ∧ ∀ l, K l → (utf8 t')[l]? = (utf8 t)[l]? := by
  refine ⟨h, fun l hl => ?_⟩
  rcases Nat.lt_or_ge l n with h' | h'
  · exact hk l h' hl
  · rw [List.getElem?_eq_none (by simp; omega), List.getElem?_eq_none (by simp; omega)]

set_option maxRecDepth 8000 in
theorem longTexts_match : OtherTexts (fun t t' => byteLen t' = byteLen t ∧ ∀ l,
    (marks (Borrow.runOps 1 3 longTexts (unmarked (stackedStart sample))).2 (8 + 1 + l)).read = true →
      (utf8 t')[l]? = (utf8 t)[l]?) longTexts longTexts' :=
  .cons (.insertStrTruncate (match_upTo 7 (by decide) (by decide) (by decide))) <| .cons .same <|
    .cons (.replaceRange (match_upTo 7 (by decide) (by decide) (by decide))) <|
    .cons (.insertStrTruncate (match_upTo 7 (by decide) (by decide) (by decide))) <| .cons .same .nil

set_option maxRecDepth 8000 in
/-- The hypotheses of `C58_text` hold for them. -/
example : sample.array.length = 8 ∧ longTexts' ≠ longTexts ∧
    (∀ r ∈ (Borrow.runOps 1 3 longTexts (unmarked (stackedStart sample))).1, r ≠ .ub ∧ r ≠ .diverge) ∧
    textRead 7 (Borrow.runOps 1 3 longTexts (unmarked (stackedStart sample))).2 = [3, 4] := by
  refine ⟨by decide, by simp [longTexts, longTexts'], by decide, by decide⟩

set_option maxRecDepth 8000 in
/-- The hypotheses of `C58_text_tree` hold for a call whose index is wrong: of its text of seven bytes only
those at the end of the room are read. -/
example : TreeReady 1 3 20 (treeStart sample) ∧
    (∀ t ∈ texts (.insertStrTruncate 9 ['a', 'é', '€', 'b']), 8 + 1 + byteLen t ≤ 20) ∧
    (Verif.exec (.insertStrTruncate 9 ['a', 'é', '€', 'b']) sample).1 = .err .outOfBounds ∧
    textRead 7 (Borrow.exec 1 3 (.insertStrTruncate 9 ['a', 'é', '€', 'b']) (unmarked (treeStart sample))).2 = [3, 4] ∧
    OtherText (fun t t' => byteLen t' = byteLen t ∧ ∀ l,
      (marks (Borrow.exec 1 3 (.insertStrTruncate 9 ['a', 'é', '€', 'b']) (unmarked (treeStart sample))).2
        (8 + 1 + l)).read = true → (utf8 t')[l]? = (utf8 t)[l]?)
      (.insertStrTruncate 9 ['a', 'é', '€', 'b']) (.insertStrTruncate 9 ['ß', 'z', '₩', 'c']) :=
  ⟨treeStart_ready _ _, by decide,
    (exec_step (.insertStrTruncate 9 ['a', 'é', '€', 'b']) (by simp [Op.Ok]) sample _ sample_holds).1, by decide,
    .insertStrTruncate (match_upTo 7 (by decide) (by decide) (by decide))⟩

/-! ## Tests: the bytes of a text that calls read -/

/-- The bytes of the text, of at most eight, that a call reads. -/
def usedText (op : Op) : List Nat := textRead 8 (Borrow.exec 1 3 op (unmarked (treeStart sample))).2

set_option maxRecDepth 8000 in
example : usedText (.insertStrTruncate 5 ['a', 'b', 'c', 'd', 'e', 'f']) = [4] ∧
    usedText (.insertStrTruncate 5 ['a', 'b', '😀', 'f']) = [2, 3, 4] ∧
    usedText (.insertStrTruncate 5 ['a', 'b', 'c', 'd']) = [] ∧
    usedText (.replaceRange (.range 1 2) ['a', 'b']) = [] ∧ usedText (.eqStr ['a', 'b']) = [0, 1] := by decide

end Verif
