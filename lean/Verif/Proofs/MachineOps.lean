import Verif.Proofs.MachineMethods

/-! Loads and stores: the constructors, the traits, and one call. -/

namespace Verif.Machine
open Spec
open Borrow (Rules Tag World Settled settled_ok settled_err settled_panic emptyLit feed widest decoded)

variable {R : Rules} {N : Nat} {ε ε' α β α' β' φ : Type} {K : Nat} {b : Bytes} {g : Nat → UInt8} {E : (Nat → UInt8) → Prop}
  {m : M (Mem R N) ε α} {n : M (World R N) ε β} {Q : α → β → (Nat → UInt8) → Prop}
  {t u self caller arg : Tag} {lo hi k idx : Nat} {cs : List Char}

/-- The string is the same. -/
def StrKept (N : Nat) (g g' : Nat → UInt8) : Prop := strOf N g' = strOf N g

theorem StrKept.valid {g' : Nat → UInt8} (h : StrKept N g g') (hg : Valid N g) : Valid N g' := valid_congr h.symm hg

variable [ValidCapacity N]

theorem sim_fromStrTruncate {x : Bytes} (hx : sliceOf g (N + 1) x.length = x) (hu : ∃ w, x = utf8 w) :
    Sim K b g (fromStrTruncate arg x.length : M (Mem R N) ε _) (Borrow.fromStrTruncate arg x) (Made (· = g)) (· = g) := by
  refine sim_passShared fun t => sim_made <| sim_withLocal holds_new.1 (E' := Valid N) fun u => sim_callMut fun s => ?_
  rw [Nat.add_sub_cancel_left, hx]
  exact (sim_pushStrTruncate ⟨List.prefix_refl _, hu⟩ (valid_inner holds_new)).mono (fun _ _ _ h => h.2) fun _ h => h

omit [ValidCapacity N] in
theorem sim_feed {body : α → M (Mem R N) ε Bool} {body' : α → M (World R N) ε Bool} {l : Script α}
    (h : ∀ a g, some a ∈ l → Valid N g → Sim K [] g (body a) (body' a) (Good N) E) (hg : Valid N g) :
    Sim K [] g (feed body l) (feed body' l) (fun _ _ => Valid N) E := by
  induction l generalizing g with
  | nil => exact sim_pure hg
  | cons a l ih =>
    cases a with
    | none => exact sim_lift (fun _ h => by cases h) fun _ h => by cases h
    | some a =>
      refine sim_bind (h a g (by simp) hg) fun x _ g' ⟨h1, h2⟩ => ?_
      subst h1
      cases x with
      | true => exact ih (fun a g ha => h a g (List.mem_cons_of_mem _ ha)) h2
      | false => exact sim_pure h2

theorem sim_tryFromIterator {l : Script Bytes} (hl : ∀ s, some s ∈ l → ∃ w, s = utf8 w) (hK : ∀ s, some s ∈ l → s.length ≤ K) :
    Sim K [] g (tryFromIterator arg l : M (Mem R N) _ _) (Borrow.tryFromIterator arg l) (Made (StrKept N g)) (StrKept N g) := by
  refine sim_made <| sim_withLocal_text (E' := Valid N) (K' := K) holds_new.1 (Nat.add_le_add_left (Borrow.widest_le hK) _)
    fun out => sim_feed (fun s g' hs hg' => ?_) (valid_inner holds_new)
  refine sim_place (hK s hs) fun ht => sim_given ht ?_
  exact sim_bind (sim_callMut fun _ => sim_tryPushStr ⟨List.prefix_refl _, hl s hs⟩ (valid_congr strOf_placed.symm hg'))
    fun _ _ _ h => sim_pure ⟨rfl, h.2⟩

theorem sim_fromIteratorTruncate {l : Script ArrayString.AsRefTwice}
    (hl : ∀ s, some s ∈ l → (∃ w, s.first = utf8 w) ∧ ∃ w, s.second = utf8 w)
    (hK : ∀ s, some s ∈ l → max s.first.length s.second.length ≤ K) :
    Sim K [] g (fromIteratorTruncate arg l : M (Mem R N) ε _) (Borrow.fromIteratorTruncate arg l) (Made (StrKept N g)) (StrKept N g) := by
  refine sim_made <| sim_withLocal_text (E' := Valid N) (K' := K) holds_new.1 (Nat.add_le_add_left (Borrow.widest_le hK) _)
    fun out => sim_feed (fun s g' hs hg' => ?_) (valid_inner holds_new)
  have hk := hK s hs
  refine sim_then sim_retagTwoPhase fun _ => sim_place (by omega) fun ht => sim_then sim_through fun _ => ?_
  refine sim_bind (sim_attempt (sim_passUnique fun _ => sim_given ht <|
    sim_tryPushStr ⟨List.prefix_refl _, (hl s hs).1⟩ (valid_congr strOf_placed.symm hg'))) fun _ _ _ h => ?_
  rcases h with ⟨_, _, rfl, rfl, _, h⟩ | ⟨_, rfl, rfl, h⟩
  · exact sim_pure ⟨rfl, h⟩
  · refine sim_place (by omega) fun ht => sim_given ht ?_
    exact sim_bind (sim_callMut fun _ => sim_pushStrTruncate ⟨List.prefix_refl _, (hl s hs).2⟩ (valid_congr strOf_placed.symm h))
      fun _ _ _ h => sim_pure ⟨rfl, h.2⟩

omit [ValidCapacity N] in
/-- A constructor that pushes characters. -/
theorem sim_chars {body : Tag → α → M (Mem R N) ε Bool} {body' : Tag → α → M (World R N) ε Bool} {l : Script α}
    (h : ∀ out a g, Valid N g → Sim 0 [] g (body out a) (body' out a) (Good N) (fun _ => True)) :
    Sim K [] g (withNew 0 0 (fun out => feed (body out) l) >>= fun r => pure r.2)
      (Borrow.withNew 0 0 (fun out => feed (body' out) l) >>= fun r => pure r.2) (Made (StrKept N g)) (StrKept N g) := by
  have : Sim K [] g (withNew 0 0 (fun out => feed (body out) l) >>= fun r => pure r.2)
      (Borrow.withNew 0 0 (fun out => feed (body' out) l) >>= fun r => pure r.2) (Made (· = g)) (· = g) := by
    refine sim_made <| sim_withLocal holds_new.1 (E' := fun _ => True) fun out => ?_
    exact sim_feed (fun a g _ hg => h out a g hg) (valid_inner holds_new)
  exact this.mono (fun _ _ _ ⟨h1, h2, h3⟩ => ⟨h1, congrArg (strOf N) h2, h3⟩) fun _ h => congrArg (strOf N) h

theorem sim_pushOrBreak {out : Tag} {c : Char} (hg : Valid N g) :
    Sim K b g (pushOrBreak out c : M (Mem R N) ε Bool) (Borrow.pushOrBreak out c) (Good N) E := by
  refine sim_bind (sim_attempt (sim_callMut fun _ => sim_tryPush hg)) fun _ _ _ h => ?_
  rcases h with ⟨_, _, rfl, rfl, _, h⟩ | ⟨_, rfl, rfl, h⟩ <;> exact sim_pure ⟨rfl, h⟩

theorem sim_tryFromChars {l : Script Char} :
    Sim K [] g (tryFromChars l : M (Mem R N) _ _) (Borrow.tryFromChars l) (Made (StrKept N g)) (StrKept N g) :=
  sim_chars fun _ _ _ hg => sim_bind ((sim_callMut fun _ => sim_tryPush hg).mono (fun _ _ _ h => h) fun _ _ => trivial)
    fun _ _ _ h => sim_pure ⟨rfl, h.2⟩

theorem sim_fromCharsTruncate {l : Script Char} :
    Sim K [] g (fromCharsTruncate l : M (Mem R N) ε _) (Borrow.fromCharsTruncate l) (Made (StrKept N g)) (StrKept N g) :=
  sim_chars fun _ _ _ hg => sim_pushOrBreak hg

theorem sim_tryFromUtf16 {l : List UInt16} :
    Sim K [] g (tryFromUtf16 l : M (Mem R N) _ _) (Borrow.tryFromUtf16 l) (Made (StrKept N g)) (StrKept N g) := by
  refine sim_chars fun _ c _ hg => ?_
  cases c with
  | none => exact sim_lift (fun _ h => by cases h) fun _ _ => trivial
  | some c =>
    exact sim_bind (ε := Error) (sim_tryM (ε' := Error) ((sim_callMut fun _ => sim_tryPush hg).mono (fun _ _ _ h => h) fun _ _ => trivial))
      fun _ _ _ h => sim_pure ⟨rfl, h.2⟩

theorem sim_fromUtf16Truncate {l : List UInt16} :
    Sim K [] g (fromUtf16Truncate l : M (Mem R N) _ _) (Borrow.fromUtf16Truncate l) (Made (StrKept N g)) (StrKept N g) := by
  refine sim_chars fun _ c _ hg => ?_
  cases c with
  | none => exact sim_lift (fun _ h => by cases h) fun _ _ => trivial
  | some c => exact sim_pushOrBreak hg

theorem sim_fromUtf16LossyTruncate {l : List UInt16} :
    Sim K [] g (fromUtf16LossyTruncate l : M (Mem R N) ε _) (Borrow.fromUtf16LossyTruncate l) (Made (StrKept N g)) (StrKept N g) :=
  sim_chars fun _ _ _ hg => sim_pushOrBreak hg

/-! ## The traits -/

theorem sim_extend {make : M (Mem R N) ε (ArrayString N)} {make' : M (World R N) ε (ArrayString N)}
    (h : Sim K [] g make make' (Made (StrKept N g)) (StrKept N g)) (hg : Valid N g) :
    Sim K [] g (extend self make) (Borrow.extend self make') (fun a c _ => a = c) (fun _ => True) := by
  refine sim_then sim_retagTwoPhase fun _ => sim_bind (h.mono (fun _ _ _ h => h) fun _ _ => trivial) fun s _ g' ⟨h1, h2, cs, h3⟩ => ?_
  subst h1
  have hg' := h2.valid hg
  refine sim_skip_left h3.asRefStr <| sim_skip_right h3.asRefStr <|
    sim_withBuf rfl (Q' := fun a c _ => a = c) (E' := fun _ => True) (K' := 0) (fun t => ?_) (fun _ _ _ _ _ h => h) fun _ _ _ h => h
  refine sim_given (x := utf8 cs) ?_ <| sim_passUnique fun _ =>
    (sim_pushStrTruncate part_self (valid_congr (strOf_congr fun l hl => by rw [if_pos hl]) hg')).mono (fun _ _ _ h => h.1) fun _ h => h
  intro i hi
  dsimp only
  rw [if_neg (by omega), show N + 1 + i - (N + 1) = i by omega, List.getElem?_eq_getElem hi]
  rfl

theorem sim_addTo {s : ArrayString N} {x : Bytes} (hs : Holds s cs) (hx : sliceOf g (N + 1) x.length = x) (hu : ∃ w, x = utf8 w) :
    Sim K b g (addTo s arg x.length : M (Mem R N) ε _) (Borrow.addTo s arg x) (Made (· = g)) (· = g) := by
  refine sim_passShared fun t => sim_made <| sim_withLocal hs.1 (E' := Valid N) fun u => sim_callMut fun s => ?_
  rw [Nat.add_sub_cancel_left, hx]
  exact (sim_pushStrTruncate ⟨List.prefix_refl _, hu⟩ (valid_inner hs)).mono (fun _ _ _ h => h.2) fun _ h => h

omit [ValidCapacity N] in
theorem sim_loadString {f : ArrayString N → M (Mem R N) ε α} {f' : ArrayString N → M (World R N) ε β}
    (h : Sim K b g (f (strOf N g)) (f' (strOf N g)) Q E) :
    Sim K b g (loadString caller >>= f) (Borrow.readAt caller 0 (N + 1) >>= fun _ => Borrow.get >>= f') Q E := by
  unfold loadString
  rw [bind_assoc]
  refine sim_load_then (by simp) <| sim_get ?_
  have : (⟨(sliceOf g 0 (N + 1)).take N, ((sliceOf g 0 (N + 1)).drop N).headD 0⟩ : ArrayString N) = strOf N g := by
    unfold strOf sliceOf
    rw [List.range'_concat]
    simp
  show Sim K b g (f ⟨(sliceOf g 0 (N + 1)).take N, _⟩) _ _ _
  rwa [this]

theorem sim_add {x : Bytes} (hg : Valid N g) (hx : sliceOf g (N + 1) x.length = x) (hu : ∃ w, x = utf8 w) :
    Sim K b g (add caller arg x.length : M (Mem R N) ε _) (Borrow.add caller arg x) (Made (· = g)) (· = g) :=
  let ⟨_, hs⟩ := hg
  sim_loadString (sim_addTo hs hx hu)

theorem sim_writeAll {l : List Bytes} (hl : ∀ s ∈ l, ∃ w, s = utf8 w) (hK : ∀ s ∈ l, s.length ≤ K) (hg : Valid N g) :
    Sim K [] g (writeAll self arg l : M (Mem R N) _ _) (Borrow.writeAll self arg l) (fun a c _ => a = c) (fun _ => True) := by
  induction l generalizing g with
  | nil => exact sim_pure rfl
  | cons s l ih =>
    have ih' := fun {g} => ih (g := g) (fun s hs => hl s (List.mem_cons_of_mem _ hs)) fun s hs => hK s (List.mem_cons_of_mem _ hs)
    unfold writeAll Borrow.writeAll
    split
    · exact ih' hg
    · refine sim_place (hK s (by simp)) fun ht => sim_bind (sim_given ht <| (sim_callMut fun _ =>
        sim_writeStr ⟨List.prefix_refl _, hl s (by simp)⟩ (valid_congr strOf_placed.symm hg)).mono (fun _ _ _ h => h.2) fun _ _ => trivial)
        fun _ _ _ h => ih' h

omit [ValidCapacity N] in
theorem sim_reading (h : Holds (strOf N g) cs) : Sim K b g (reading caller : M (Mem R N) ε Bytes) (Borrow.reading caller)
    (fun x _ g' => x = utf8 cs ∧ g' = g) E :=
  sim_callShared fun _ => sim_bind (sim_asStr h) fun _ _ _ ⟨h1, h2, h3⟩ => by
    subst h1 h3
    refine sim_passShared fun _ => ?_
    rw [← bind_pure (load _ 0 _), ← bind_pure (Borrow.readAt _ _ _)]
    exact sim_load_then (by simp) (sim_pure ⟨by rw [h2, valid_bytes h], rfl⟩)

omit [ValidCapacity N] in
theorem sim_boundary_own {f : Bool → M (Mem R N) ε α} {f' : M (World R N) ε β} (h : Holds (strOf N g) cs) (hk : k = (g N).toNat)
    (hf : Sim K b g (f (Str.isCharBoundary (utf8 cs) idx)) f' Q E) :
    Sim K b g (boundaryAt t 0 k idx >>= f) (Borrow.readBoundary t 0 k idx >>= fun _ => f') Q E :=
  sim_bind (sim_boundaryAt (x := utf8 cs) (by rw [← valid_length h]; exact valid_bytes h) (by rw [hk, valid_length h]))
    fun _ _ _ ⟨h1, h2⟩ => by subst h1 h2; exact hf

omit [ValidCapacity N] in
theorem sim_panic {f : α → M (Mem R N) ε β} {f' : α' → M (World R N) ε β'} {Q : β → β' → (Nat → UInt8) → Prop} :
    Sim K b g (M.lift .panic >>= f) (M.lift .panic >>= f') Q E := by
  intro s _ _ r w' e hr
  cases e
  refine ⟨.panic, s, rfl, rfl, ?_, trivial⟩
  subst_vars
  exact .refl (by assumption)

omit [ValidCapacity N] in
theorem sim_stop {Q : β → β' → (Nat → UInt8) → Prop} :
    Sim K b g (M.lift .panic : M (Mem R N) ε β) (M.lift .panic : M (World R N) ε β') Q E := by
  intro s _ _ r w' e hr
  cases e
  refine ⟨.panic, s, rfl, rfl, ?_, trivial⟩
  subst_vars
  exact .refl (by assumption)

/-- The slice that an index returns. -/
def Slice (N : Nat) (g : Nat → UInt8) (x y : Nat) (t : Bytes) : Prop :=
  ∃ pre mid post, Holds (strOf N g) (pre ++ mid ++ post) ∧ x = byteLen pre ∧ y = byteLen pre + byteLen mid ∧ t = utf8 mid

omit [ValidCapacity N] in
theorem sim_index_then {x y : Nat} {f : M (Mem R N) ε α} {f' : Bytes → M (World R N) ε β} (h : Holds (strOf N g) cs)
    (hf : ∀ t, Str.get? (utf8 cs) x y = some t → Slice N g x y t → Sim K b g f (f' t) Q E) :
    Sim K b g (M.lift (if x ≤ y ∧ Str.isCharBoundary (utf8 cs) x = true ∧ Str.isCharBoundary (utf8 cs) y = true then .ok () else .panic) >>= fun _ => f)
      (M.lift (Str.index (utf8 cs) x y) >>= f') Q E := by
  by_cases hc : x ≤ y ∧ Str.isCharBoundary (utf8 cs) x = true ∧ Str.isCharBoundary (utf8 cs) y = true
  · rw [if_pos hc]
    have hg : Str.get? (utf8 cs) x y = some (((utf8 cs).drop x).take (y - x)) := by
      unfold Str.get?
      exact if_pos hc
    refine sim_skip_left rfl <| sim_skip_right (c := ((utf8 cs).drop x).take (y - x)) (by unfold Str.index; rw [hg]) (hf _ hg ?_)
    obtain ⟨pre, mid, post, rfl, rfl, rfl⟩ := cut_three ((isCharBoundary_utf8 _ _).1 hc.2.1) ((isCharBoundary_utf8 _ _).1 hc.2.2) hc.1
    exact ⟨pre, mid, post, h, rfl, rfl, by simp [utf8_append, Nat.add_sub_cancel_left, List.append_assoc]⟩
  · rw [if_neg hc]
    have hg : Str.get? (utf8 cs) x y = none := by
      unfold Str.get?
      exact if_neg hc
    have : (Str.index (utf8 cs) x y : Res ε Bytes) = .panic := by unfold Str.index; rw [hg]
    rw [this]
    exact sim_panic

/-- A reference to a slice. -/
def RefSlice (N : Nat) (g : Nat → UInt8) (a : Tag × Nat × Nat) (c : Tag × Nat × Nat × Bytes) (g' : Nat → UInt8) : Prop :=
  a.1 = c.1 ∧ a.2.1 = c.2.1 ∧ a.2.2 = c.2.2.1 ∧ Slice N g c.2.1 c.2.2.1 c.2.2.2 ∧ g' = g

omit [ValidCapacity N] in
theorem sim_refSlice {m : M (Mem R N) ε (Tag × Nat × Nat)} {n : M (World R N) ε (Tag × Nat × Nat × Bytes)}
    (h : Sim K b g m n (RefSlice N g) E) :
    Sim K b g (m >>= fun p => match p with | (a, x, y) => retagShared a x y false >>= fun a => pure (a, x, y))
      (n >>= fun p => match p with | (a, x, y, t) => Borrow.retagShared a x y false >>= fun a => pure (a, x, y, t)) (RefSlice N g) E := by
  refine sim_bind h fun ⟨a, x, y⟩ ⟨a', x', y', t⟩ _ ⟨h1, h2, h3, h4, h5⟩ => ?_
  dsimp only at h1 h2 h3 h4
  subst h1 h2 h3 h5
  exact sim_then sim_retagShared fun _ => sim_pure ⟨rfl, rfl, rfl, h4, rfl⟩

omit [ValidCapacity N] in
theorem sim_indexRef {i : IdxU8} (h : Holds (strOf N g) cs) :
    Sim K b g (indexRef caller i : M (Mem R N) ε _) (Borrow.indexRef caller i) (RefSlice N g) E := by
  refine sim_refSlice <| sim_callShared fun _ => sim_bind (sim_asStr h) fun ⟨a, k⟩ ⟨c, _⟩ _ ⟨e1, e2, e3⟩ => ?_
  dsimp only at e2
  cases e1
  subst e3
  refine sim_text_right h <| sim_refSlice <| sim_passShared fun _ => ?_
  rw [← valid_length h, ← e2]
  cases i.toUsize.resolve k with
  | none => exact sim_stop
  | some p =>
    obtain ⟨x, y⟩ := p
    exact sim_boundary_own h e2 <| sim_boundary_own h e2 <| sim_index_then h fun t _ ht =>
      sim_then sim_retagShared fun _ => sim_pure ⟨rfl, rfl, rfl, ht, rfl⟩

omit [ValidCapacity N] in
theorem Slice.slice {x y : Nat} {t : Bytes} (h : Slice N g x y t) : sliceOf g x (y - x) = t := by
  obtain ⟨pre, mid, post, h, rfl, rfl, rfl⟩ := h
  rw [Nat.add_sub_cancel_left]
  have := slice_part h
  rwa [length_utf8] at this

omit [ValidCapacity N] in
theorem Slice.le {x y : Nat} {t : Bytes} (h : Slice N g x y t) : x ≤ y ∧ y ≤ N := by
  obtain ⟨pre, mid, post, h, rfl, rfl, rfl⟩ := h
  have := h.le
  simp only [byteLen_append] at this
  omega

omit [ValidCapacity N] in
theorem sim_index {i : IdxU8} (h : Holds (strOf N g) cs) :
    Sim K b g (index caller i : M (Mem R N) ε _) (Borrow.index caller i) (fun a c _ => a = c) E := by
  refine sim_bind (sim_indexRef h) fun ⟨a, x, y⟩ ⟨a', x', y', t⟩ _ ⟨h1, h2, h3, h4, h5⟩ => ?_
  dsimp only at h1 h2 h3 h4
  subst h1 h2 h3 h5
  dsimp only
  have := h4.le
  rw [← bind_pure (load _ _ _)]
  exact sim_load_then (by omega) (sim_pure h4.slice)

/-! ## Edits -/

omit [ValidCapacity N] in
theorem sim_asMutOn (h : Holds (strOf N g) cs) :
    Sim K b g (asMutOn self : M (Mem R N) ε _) (Borrow.asMutOn self) (RefTo N g) E := by
  have hl := valid_le h
  refine sim_len_then <| sim_skip_left (debugAssert_true (by simpa using hl)) <|
    sim_then sim_retagUnique fun _ => sim_then sim_throughMut fun _ => sim_skip_left (if_pos hl) <|
    sim_then sim_throughRaw fun _ => sim_then sim_retagShared fun _ =>
    sim_bind (Q := fun x _ g' => x = utf8 cs ∧ g' = g) (sim_passShared fun _ => ?_) fun _ _ _ ⟨h1, h2⟩ => ?_
  · rw [← bind_pure (load _ 0 _), ← bind_pure (Borrow.readAt _ _ _)]
    exact sim_load_then (by simp) (sim_pure ⟨valid_bytes h, rfl⟩)
  · subst h1 h2
    exact sim_skip_left (debugAssert_true (by simp)) <| sim_skip_left (c := utf8 cs) (by simp [Str.fromUtf8Unchecked]) <|
      sim_then sim_throughRaw fun _ => sim_pure ⟨rfl, rfl, rfl⟩

omit [ValidCapacity N] in
theorem sim_asMutStr (h : Holds (strOf N g) cs) :
    Sim K b g (asMutStr self : M (Mem R N) ε _) (Borrow.asMutStr self) (RefTo N g) E :=
  sim_then sim_retagTwoPhase fun _ => sim_passRef fun _ => sim_then sim_retagTwoPhase fun _ => sim_passRef fun _ => sim_asMutOn h

omit [ValidCapacity N] in
/-- A write of which the plain model says what it does to the string. -/
theorem sim_store_plain {x : Bytes} {p : M (ArrayString N) ε Unit} {v : ArrayString N} {Q : Unit → Unit → (Nat → UInt8) → Prop}
    (hp : p (strOf N g) = (.ok (), v)) (h : hi = lo + x.length) (hx : hi ≤ N + 1)
    (hv : strOf N (stored g lo x) = v) (hq : Q () () (stored g lo x)) :
    Sim K b g (store t lo x : M (Mem R N) ε Unit) (Borrow.writeAt t lo hi >>= fun _ => Borrow.plain p) Q E := by
  intro s hs ht r w' e hr
  refine sim_store (E := E) h hx hv hq s hs ht r w' ?_ hr
  rw [← e]
  change M.bind _ _ _ = _ at e
  show M.bind _ _ _ = M.bind _ _ _
  unfold M.bind at e ⊢
  obtain ⟨y, hy⟩ : ∃ y, (Borrow.writeAt t lo hi : M (World R N) ε Unit) (abs s) = y := ⟨_, rfl⟩
  obtain ⟨r1, w1⟩ := y
  rw [hy] at e ⊢
  have hr1 : Settled r1 := by
    cases r1 with
    | ub => cases e; exact (not_settled_ub hr)
    | diverge => cases e; exact (not_settled_div hr)
    | _ => exact ⟨nofun, nofun⟩
  obtain ⟨rfl, h1, _⟩ := Borrow.touch_eq hy hr1
  subst hs
  change w1.str = strOf N s.bytes at h1
  show Borrow.put v w1 = Borrow.plain p w1
  unfold Borrow.plain
  rw [h1, hp]
  rfl

omit [ValidCapacity N] in
theorem onBytes_utf8 {e : Edit} {mid : List Char} :
    e.onBytes (utf8 mid) = utf8 (e.apply mid) ∧ (e.onBytes (utf8 mid)).length = (utf8 mid).length := by
  unfold Edit.onBytes
  rw [chars_utf8]
  exact ⟨rfl, by simp [e.keeps]⟩

omit [ValidCapacity N] in
theorem sim_rewrite {x y : Nat} {tx : Bytes} {e : Edit} {p : M (ArrayString N) ε Unit} (h : Slice N g x y tx)
    (hp : p (strOf N g) = (.ok (), { strOf N g with array := (strOf N g).array.take x ++ e.onBytes tx ++ (strOf N g).array.drop y })) :
    Sim K b g (rewrite t x (y - x) e.onBytes : M (Mem R N) ε Unit)
      (Borrow.readAt t x y >>= fun _ => Borrow.writeAt t x y >>= fun _ => Borrow.plain p) (fun a c _ => a = c) E := by
  have hle := h.le
  refine sim_load_then (by omega) ?_
  rw [h.slice]
  obtain ⟨pre, mid, post, h, rfl, rfl, rfl⟩ := h
  obtain ⟨h1, h2⟩ := onBytes_utf8 (e := e) (mid := mid)
  have h3 : (e.onBytes (utf8 mid)).length = byteLen mid := by rw [h2, length_utf8]
  refine sim_skip_left (if_pos ⟨by omega, by rw [h1]; simp⟩) <| sim_store_plain hp (by omega) (by omega) ?_ rfl
  rw [strOf_stored (by omega), h3]

omit [ValidCapacity N] in
theorem asMutStr_holds {s : ArrayString N} {e : Edit} (h : Holds s cs) :
    (ArrayString.asMutStr e.onBytes : M (ArrayString N) ε Unit) s =
      (.ok (), { s with array := s.array.take 0 ++ e.onBytes (utf8 cs) ++ s.array.drop (byteLen cs) }) := by
  obtain ⟨h1, h2⟩ := onBytes_utf8 (e := e) (mid := cs)
  have hb : (getUncheckedTo s.array s.len : Res ε Bytes) = .ok (utf8 cs) := by
    unfold getUncheckedTo
    rw [if_pos (by rw [h.1]; exact h.2.1)]
    exact congrArg _ h.2.2
  unfold ArrayString.asMutStr ArrayString.asMut
  have h5 : (debugAssert (decide (s.len ≤ N)) : Res ε Unit) = .ok () := debugAssert_true (decide_eq_true h.2.1)
  have h6 : (debugAssert (Str.validUtf8 (utf8 cs)) : Res ε Unit) = .ok () := debugAssert_true (by simp)
  have h7 : (Str.fromUtf8Unchecked (utf8 cs) : Res ε Bytes) = .ok (utf8 cs) := by simp [Str.fromUtf8Unchecked]
  simp only [M.bind_apply, M.self_apply, M.lift_apply, h5, hb, h6, h7, M.setSelf_apply, List.take_zero, List.nil_append]
  rw [if_pos ⟨h2, by rw [h1]; simp⟩]
  simp only [h.len]

omit [ValidCapacity N] in
theorem indexMut_holds {s : ArrayString N} {e : Edit} {i : IdxU8} {x y : Nat} {mid : List Char} (h : Holds s cs)
    (hi : i.toUsize.resolve (byteLen cs) = some (x, y)) (ht : Str.get? (utf8 cs) x y = some (utf8 mid)) :
    (ArrayString.indexMut i e.onBytes : M (ArrayString N) ε Unit) s =
      (.ok (), { s with array := s.array.take x ++ e.onBytes (utf8 mid) ++ s.array.drop y }) := by
  obtain ⟨h1, h2⟩ := onBytes_utf8 (e := e) (mid := mid)
  have hb : (getUncheckedTo s.array s.len : Res ε Bytes) = .ok (utf8 cs) := by
    unfold getUncheckedTo
    rw [if_pos (by rw [h.1]; exact h.2.1)]
    exact congrArg _ h.2.2
  unfold ArrayString.indexMut
  have h5 : (debugAssert (decide (s.len ≤ N)) : Res ε Unit) = .ok () := debugAssert_true (decide_eq_true h.2.1)
  have h6 : (debugAssert (Str.validUtf8 (utf8 cs)) : Res ε Unit) = .ok () := debugAssert_true (by simp)
  have h7 : (Str.fromUtf8Unchecked (utf8 cs) : Res ε Bytes) = .ok (utf8 cs) := by simp [Str.fromUtf8Unchecked]
  have h8 : (Str.index (utf8 cs) x y : Res ε Bytes) = .ok (utf8 mid) := by unfold Str.index; rw [ht]
  simp only [M.bind_apply, M.self_apply, M.lift_apply, h5, hb, h6, h7, length_utf8, hi, h8, M.setSelf_apply]
  rw [if_pos ⟨by rw [h2, length_utf8], by rw [h1]; simp⟩]

omit [ValidCapacity N] in
theorem sim_editText {e : Edit} (h : Holds (strOf N g) cs) :
    Sim K b g (editText caller e.onBytes : M (Mem R N) ε Unit) (Borrow.editText caller e.onBytes) (fun a c _ => a = c) E := by
  refine sim_bind (sim_asMutStr h) fun ⟨a, k⟩ ⟨c, _⟩ _ ⟨e1, e2, e3⟩ => ?_
  dsimp only at e2
  cases e1
  subst e3
  have hl : k = byteLen cs := by rw [e2, valid_length h, length_utf8]
  subst hl
  exact sim_rewrite (x := 0) (y := byteLen cs) (tx := utf8 cs) ⟨[], cs, [], by simpa using h, by simp, by simp, rfl⟩
    (asMutStr_holds h)

omit [ValidCapacity N] in
theorem sim_indexMutOn {i : IdxU8} (h : Holds (strOf N g) cs) :
    Sim K b g (indexMutOn self i : M (Mem R N) ε _) (Borrow.indexMutOn self i) (fun a c g' => a = c ∧ g' = g ∧
      i.toUsize.resolve (byteLen cs) = some a.2 ∧ ∃ t, Str.get? (utf8 cs) a.2.1 a.2.2 = some t ∧ Slice N g a.2.1 a.2.2 t) E := by
  refine sim_bind (sim_asMutStr h) fun ⟨a, k⟩ ⟨c, _⟩ _ ⟨e1, e2, e3⟩ => ?_
  dsimp only at e2
  cases e1
  subst e3
  refine sim_text_right h ?_
  have hl : k = byteLen cs := by rw [e2, valid_length h, length_utf8]
  rw [← hl]
  dsimp only
  cases hr : i.toUsize.resolve k with
  | none => exact sim_stop
  | some p =>
    obtain ⟨x, y⟩ := p
    exact sim_boundary_own h e2 <| sim_boundary_own h e2 <| sim_index_then h fun t h1 h2 =>
      sim_then sim_throughRaw fun _ => sim_pure ⟨rfl, rfl, rfl, t, h1, h2⟩

omit [ValidCapacity N] in
theorem sim_editSlice {i : IdxU8} {e : Edit} (h : Holds (strOf N g) cs) :
    Sim K b g (editSlice caller i e.onBytes : M (Mem R N) ε Unit) (Borrow.editSlice caller i e.onBytes) (fun a c _ => a = c) E := by
  refine sim_bind (sim_callMut fun _ => sim_indexMutOn h) fun ⟨v, x, y⟩ _ _ ⟨e1, e2, e3, t, e4, e5⟩ => ?_
  subst e1 e2
  dsimp only at e3 e4 e5 ⊢
  have e6 := e5
  obtain ⟨_, mid, _, _, _, _, rfl⟩ := e6
  exact sim_then sim_retagUnique fun _ => sim_rewrite e5 (indexMut_holds h e3 e4)

/-! ## The iterator of `drain` -/

theorem sim_drainEnds {d : Tag} {es : List End} (hg : Valid N g) :
    Sim K b g (drainEnds d es : M (Mem R N) ε _) (Borrow.drainEnds d es) (Good N) E := by
  induction es generalizing g with
  | nil => exact sim_pure ⟨rfl, hg⟩
  | cons x es ih =>
    cases x with
    | front =>
      refine sim_bind (sim_attempt (sim_callMut fun _ => sim_callMut fun _ => sim_remove hg)) fun _ _ _ h => ?_
      rcases h with ⟨_, _, rfl, rfl, rfl, h⟩ | ⟨_, rfl, rfl, h⟩ <;>
        exact sim_bind (ih h) fun _ _ _ ⟨h1, h2⟩ => by subst h1; exact sim_pure ⟨rfl, h2⟩
    | back =>
      refine sim_bind (sim_callMut fun _ => sim_callMut fun _ => sim_pop hg) fun _ _ _ ⟨h1, h⟩ => ?_
      subst h1
      exact sim_bind (ih h) fun _ _ _ ⟨h1, h2⟩ => by subst h1; exact sim_pure ⟨rfl, h2⟩

/-! ## Calls -/

omit [ValidCapacity N] in
theorem sim_call [Kind ε] {m : M (Mem R N) ε α} {n : M (World R N) ε α} {out : α → Out}
    (h : Sim K b g m n (fun a c _ => a = c) (fun _ => True)) :
    Sim K b g (call m out) (Borrow.call n out) (fun a c _ => a = c) (fun _ => True) :=
  sim_bind (sim_mapErr h) fun _ _ _ h => by subst h; exact sim_pure rfl

omit [ValidCapacity N] in
theorem sim_method [Kind ε] {m : Tag → M (Mem R N) ε α} {n : Tag → M (World R N) ε α} {out : α → Out}
    (h : ∀ t, Sim K b g (m t) (n t) (fun a c _ => a = c) (fun _ => True)) :
    Sim K b g (method caller m out) (Borrow.method caller n out) (fun a c _ => a = c) (fun _ => True) :=
  sim_call (sim_callMut h)

omit [ValidCapacity N] in
theorem sim_construct [Kind ε] {m : M (Mem R N) ε (ArrayString N)} {n : M (World R N) ε (ArrayString N)}
    {P P' : (Nat → UInt8) → Prop} (h : Sim K b g m n (Made P) P') :
    Sim K b g (construct caller m) (Borrow.construct caller n) (fun a c _ => a = c) (fun _ => True) :=
  sim_bind (sim_mapErr (h.mono (fun _ _ _ h => h) fun _ _ => trivial)) fun _ _ _ ⟨h1, _, _, h3⟩ => by
    subst h1
    exact sim_storeString h3.1 fun _ _ => sim_pure rfl

/-- The same outcome; the text `o` of the caller is in memory afterwards, and beyond it nothing has changed. -/
def SimCall (o : Option (List Char)) (K : Nat) (g : Nat → UInt8) (m : M (Mem R N) ε α) (n : M (World R N) ε α) : Prop :=
  ∀ s : Mem R N, s.bytes = g → ∀ r w', n (abs s) = (r, w') → Settled r →
    ∃ s', m s = (r, s') ∧ abs s' = w' ∧
      (∀ w, o = some w → Text N (utf8 w) s'.bytes) ∧ ∀ l, N + K < l → s'.bytes l = g l

omit [ValidCapacity N] in
theorem eq_of_rel {P : Prop} {r r' : Res ε α} (h : Rel (fun a c => a = c) P r r') : r = r' := by
  cases r <;> cases r' <;> simp_all [Rel]

omit [ValidCapacity N] in
theorem sim_noText {n : M (World R N) ε α} (h : Sim K [] g m n (fun a c _ => a = c) (fun _ => True)) :
    SimCall none K g m n := by
  intro s hs r w' e hr
  obtain ⟨r', s', h1, h2, h3, h4⟩ := h s hs .nil r w' e hr
  cases eq_of_rel h4
  exact ⟨s', h1, h2, nofun, h3.2⟩

omit [ValidCapacity N] in
/-- The caller gives a text. -/
theorem sim_givenText {w : List Char} {f : Nat → M (Mem R N) ε α} {n : M (World R N) ε α} (hK : byteLen w ≤ K)
    (h : ∀ g', StrKept N g g' → Text N (utf8 w) g' →
      Sim 0 (utf8 w) g' (f (utf8 w).length) n (fun a c _ => a = c) (fun _ => True)) :
    SimCall (some w) K g (given w f) n := by
  intro s hs r w' e hr
  subst hs
  have hl := length_utf8 w
  have e' : n (abs { s with bytes := stored s.bytes (N + 1) (utf8 w) }) = (r, w') := by
    rw [← e]
    show n ⟨strOf N _, s.mem, s.next⟩ = n ⟨strOf N _, s.mem, s.next⟩
    rw [strOf_placed]
  obtain ⟨r', s', h1, h2, h3, h4⟩ := h _ strOf_placed text_placed { s with bytes := stored s.bytes (N + 1) (utf8 w) } rfl
    text_placed r w' e' hr
  cases eq_of_rel h4
  refine ⟨s', h1, h2, fun _ ho => ?_, fun l hl => ?_⟩
  · cases ho
    exact h3.1
  · exact (h3.2 l (by omega)).trans (stored_out (by omega))

omit [ValidCapacity N] in
theorem sim_query [Kind ε] {m : M (Mem R N) ε α} {n : M (World R N) ε Unit} {f : ArrayString N → Res ε α} {out : α → Out}
    (h : Sim K b g m n (fun a _ g' => f (strOf N g') = .ok a) (fun _ => True)) :
    Sim K b g (call m out) (Borrow.query n f out) (fun a c _ => a = c) (fun _ => True) := by
  refine sim_call ?_
  rw [← bind_pure m]
  exact sim_bind h fun _ _ _ h => sim_get <| (by
    rw [h]
    exact sim_pure rfl)

omit [ValidCapacity N] in
theorem sim_discard {n' : M (World R N) ε β} {Q : α → Unit → (Nat → UInt8) → Prop} (h : Sim K b g m n' (fun a _ g' => Q a () g') E) :
    Sim K b g m (discard n') Q E := by
  have : (discard n' : M (World R N) ε Unit) = n' >>= fun _ => pure () := rfl
  rw [this, ← bind_pure m]
  exact sim_bind h fun _ _ _ h => sim_pure h

omit [ValidCapacity N] in
theorem strs (ws : Script (List Char)) : ∀ s, some s ∈ ws.map (Option.map fun w => (⟨utf8 w, utf8 w⟩ : ArrayString.AsRefTwice)) →
    (∃ w, s.first = utf8 w) ∧ ∃ w, s.second = utf8 w := by
  intro s hs
  obtain ⟨o, _, ho⟩ := List.mem_map.1 hs
  cases o with
  | none => cases ho
  | some w => cases ho; exact ⟨⟨_, rfl⟩, _, rfl⟩

omit [ValidCapacity N] in
theorem strsLe {ws : Script (List Char)} (h : ∀ w, some w ∈ ws → byteLen w ≤ K) :
    ∀ s, some s ∈ ws.map (Option.map fun w => (⟨utf8 w, utf8 w⟩ : ArrayString.AsRefTwice)) →
      max s.first.length s.second.length ≤ K := by
  intro s hs
  obtain ⟨o, ho', ho⟩ := List.mem_map.1 hs
  cases o with
  | none => cases ho
  | some w =>
    cases ho
    simp only [length_utf8, Nat.max_self]
    exact h w ho'

theorem sim_exec {op : Op} (hg : Valid N g) (hK : ∀ t ∈ Borrow.texts op, byteLen t ≤ K) :
    SimCall (oneText op) K g (exec caller arg op : M (Mem R N) _ _) (Borrow.exec caller arg op) := by
  have hg' := hg
  obtain ⟨cs, hs⟩ := hg
  have new : Sim K [] g ((withNew 0 0 fun _ => pure ()) >>= fun r => pure r.2 : M (Mem R N) Error _)
      ((Borrow.withNew 0 0 fun _ => pure ()) >>= fun r => pure r.2) (Made (· = g)) (· = g) :=
    sim_made <| sim_withLocal holds_new.1 (E' := fun _ => True) fun _ => sim_pure (valid_inner holds_new)
  cases op with
  | new => exact sim_noText <| sim_construct new
  | default => exact sim_noText <| sim_construct new
  | tryFromStr w =>
    dsimp only [exec, oneText]
    refine sim_givenText (hK _ (by simp [Borrow.texts])) fun _ _ ht => ?_
    exact sim_construct (sim_tryFromStr (slice_text ht) ⟨_, rfl⟩ rfl)
  | parse w =>
    dsimp only [exec, oneText]
    refine sim_givenText (hK _ (by simp [Borrow.texts])) fun _ _ ht => ?_
    exact sim_construct (sim_tryFromStr (slice_text ht) ⟨_, rfl⟩ rfl)
  | fromStrTruncate w =>
    dsimp only [exec, oneText]
    refine sim_givenText (hK _ (by simp [Borrow.texts])) fun _ _ ht => ?_
    exact sim_construct (sim_fromStrTruncate (slice_text ht) ⟨_, rfl⟩)
  | from_ w =>
    dsimp only [exec, oneText]
    refine sim_givenText (hK _ (by simp [Borrow.texts])) fun _ _ ht => ?_
    exact sim_construct (sim_fromStrTruncate (slice_text ht) ⟨_, rfl⟩)
  | tryFromIterator ws =>
    have texts : ∀ s, some s ∈ ws.map (·.map utf8) → ∃ w, some w ∈ ws ∧ s = utf8 w := by
      intro s hs
      obtain ⟨o, ho', ho⟩ := List.mem_map.1 hs
      cases o with
      | none => cases ho
      | some w => cases ho; exact ⟨_, ho', rfl⟩
    refine sim_noText <| sim_construct (sim_tryFromIterator (fun s hs => ?_) fun s hs => ?_)
    · obtain ⟨w, _, rfl⟩ := texts s hs
      exact ⟨w, rfl⟩
    · obtain ⟨w, hw, rfl⟩ := texts s hs
      rw [length_utf8]
      exact hK w (by simpa [Borrow.texts] using hw)
  | fromIteratorTruncate ws =>
    have texts : ∀ s, some s ∈ ws.map (·.map fun p => (⟨utf8 p.1, utf8 p.2⟩ : ArrayString.AsRefTwice)) →
        ∃ p, some p ∈ ws ∧ s = ⟨utf8 p.1, utf8 p.2⟩ := by
      intro s hs
      obtain ⟨o, ho', ho⟩ := List.mem_map.1 hs
      cases o with
      | none => cases ho
      | some w => cases ho; exact ⟨_, ho', rfl⟩
    refine sim_noText <| sim_construct (sim_fromIteratorTruncate (fun s hs => ?_) fun s hs => ?_)
    · obtain ⟨p, _, rfl⟩ := texts s hs
      exact ⟨⟨_, rfl⟩, _, rfl⟩
    · obtain ⟨p, hp, rfl⟩ := texts s hs
      have h1 := hK p.1 (by simp only [Borrow.texts, List.mem_flatMap, List.mem_filterMap]; exact ⟨p, ⟨_, hp, rfl⟩, by simp⟩)
      have h2 := hK p.2 (by simp only [Borrow.texts, List.mem_flatMap, List.mem_filterMap]; exact ⟨p, ⟨_, hp, rfl⟩, by simp⟩)
      simp only [length_utf8]
      omega
  | collectStrs ws =>
    exact sim_noText <| sim_construct (sim_fromIteratorTruncate (strs ws)
      (strsLe fun w hw => hK w (by simpa [Borrow.texts] using hw)))
  | tryFromChars w => exact sim_noText <| sim_construct sim_tryFromChars
  | fromCharsTruncate w => exact sim_noText <| sim_construct sim_fromCharsTruncate
  | collectChars w => exact sim_noText <| sim_construct sim_fromCharsTruncate
  | tryFromUtf16 l => exact sim_noText <| sim_construct sim_tryFromUtf16
  | fromUtf16Truncate l => exact sim_noText <| sim_construct sim_fromUtf16Truncate
  | fromUtf16LossyTruncate l => exact sim_noText <| sim_construct sim_fromUtf16LossyTruncate
  | tryPushStr w =>
    dsimp only [exec, oneText]
    refine sim_givenText (hK _ (by simp [Borrow.texts])) fun _ hk _ => ?_
    exact sim_method fun _ =>
      (sim_tryPushStr part_self (hk.valid hg')).mono (fun _ _ _ h => h.1) fun _ _ => trivial
  | pushStrTruncate w =>
    dsimp only [exec, oneText]
    refine sim_givenText (hK _ (by simp [Borrow.texts])) fun _ hk _ => ?_
    exact sim_method fun _ =>
      (sim_pushStrTruncate part_self (hk.valid hg')).mono (fun _ _ _ h => h.1) fun _ h => h
  | tryPush c => exact sim_noText <| sim_method fun _ => (sim_tryPush hg').mono (fun _ _ _ h => h.1) fun _ _ => trivial
  | truncate n => exact sim_noText <| sim_method fun _ => sim_truncate hg'
  | pop => exact sim_noText <| sim_method fun _ => (sim_pop hg').mono (fun _ _ _ h => h.1) fun _ h => h
  | trim => exact sim_noText <| sim_method fun _ => sim_trim hg'
  | remove i => exact sim_noText <| sim_method fun _ => (sim_remove hg').mono (fun _ _ _ h => h.1) fun _ _ => trivial
  | retain f => exact sim_noText <| sim_method fun _ => sim_retain hg'
  | tryInsert i c => exact sim_noText <| sim_method fun _ => (sim_tryInsert hg').mono (fun _ _ _ h => h.1) fun _ _ => trivial
  | tryInsertStr i w =>
    dsimp only [exec, oneText]
    refine sim_givenText (hK _ (by simp [Borrow.texts])) fun _ hk _ => ?_
    exact sim_method fun _ =>
      (sim_tryInsertStr part_self (hk.valid hg')).mono (fun _ _ _ h => h.1) fun _ _ => trivial
  | insertStrTruncate i w =>
    dsimp only [exec, oneText]
    refine sim_givenText (hK _ (by simp [Borrow.texts])) fun _ hk _ => ?_
    exact sim_method fun _ =>
      (sim_insertStrTruncate part_self (hk.valid hg')).mono (fun _ _ _ h => h.1) fun _ _ => trivial
  | clear => exact sim_noText <| sim_method fun _ => sim_clear
  | drain r es =>
    refine sim_noText <| sim_call <| sim_bind ((sim_callMut fun _ => sim_drain hg').mono (fun _ _ _ h => h) fun _ _ => trivial)
      fun d _ _ ⟨h1, h2, cs, h3⟩ => ?_
    subst h1
    refine sim_bind ((sim_withLocal (E' := fun _ => True)
      (Q' := fun a c g2 => ∃ ds, Holds (strOf N g2) ds ∧ a = (c, utf8 ds)) h3.1 fun t => ?_).mono (fun _ _ _ h => h) fun _ _ => trivial)
      fun ⟨x, s⟩ ⟨y, s'⟩ _ ⟨e1, _, g2, e3, ds, e4, e5⟩ => ?_
    · refine sim_bind (sim_drainEnds (valid_inner h3)) fun _ _ _ ⟨e1, ds, e2⟩ => ?_
      subst e1
      exact sim_look_then e2 <| sim_pure ⟨ds, e2, rfl⟩
    · dsimp only at e1 e3 e5 ⊢
      subst e1 e5
      rw [e3] at e4
      exact sim_skip_right e4.asStr <| sim_pure rfl
  | splitOff i =>
    refine sim_noText <| sim_call <| sim_bind ((sim_callMut fun _ => sim_splitOff hg').mono (fun _ _ _ h => h) fun _ _ => trivial)
      fun s _ _ ⟨h1, h2, cs, h3⟩ => ?_
    subst h1
    refine sim_bind ((sim_withLocal (E' := fun _ => True)
      (Q' := fun a _ _ => a = utf8 cs) h3.1 fun t => ?_).mono (fun _ _ _ h => h) fun _ _ => trivial)
      fun ⟨x, s⟩ ⟨y, s'⟩ _ ⟨e1, _, g2, e3, e4⟩ => ?_
    · exact (sim_look (cs := cs) (by rw [strOf_inner h3.1]; exact h3)).mono (fun _ _ _ h => h.1) fun _ h => h
    · dsimp only at e4 ⊢
      subst e4
      rw [h3.asStr]
      exact sim_pure rfl
  | replaceRange r w =>
    dsimp only [exec, oneText]
    refine sim_givenText (hK _ (by simp [Borrow.texts])) fun _ hk _ => ?_
    exact sim_method fun _ =>
      (sim_replaceRangeOn part_self (hk.valid hg')).mono (fun _ _ _ _ => rfl) fun _ _ => trivial
  | extendChars w => exact sim_noText <| sim_method fun _ => sim_extend sim_fromCharsTruncate hg'
  | extendStrs ws =>
    exact sim_noText <| sim_method fun _ => sim_extend (sim_fromIteratorTruncate (strs ws)
      (strsLe fun w hw => hK w (by simpa [Borrow.texts] using hw))) hg'
  | add w =>
    dsimp only [exec, oneText]
    refine sim_givenText (hK _ (by simp [Borrow.texts])) fun _ hk ht => ?_
    exact sim_construct (sim_add (hk.valid hg') (slice_text ht) ⟨_, rfl⟩)
  | writeStr w =>
    dsimp only [exec, oneText]
    refine sim_givenText (hK _ (by simp [Borrow.texts])) fun _ hk _ => ?_
    exact sim_method fun _ =>
      (sim_writeStr part_self (hk.valid hg')).mono (fun _ _ _ h => h.1) fun _ _ => trivial
  | writeFmt ws =>
    refine sim_noText <| sim_method fun _ => sim_callMut fun _ => sim_writeAll (fun s hs => ?_) (fun s hs => ?_) hg'
    · obtain ⟨w, _, rfl⟩ := List.mem_map.1 hs
      exact ⟨w, rfl⟩
    · obtain ⟨w, hw, rfl⟩ := List.mem_map.1 hs
      rw [length_utf8]
      exact hK w hw
  | index i => exact sim_noText <| sim_call (sim_index hs)
  | indexMut i e => exact sim_noText <| sim_call (sim_editSlice hs)
  | asMutStr e => exact sim_noText <| sim_call (sim_editText hs)
  | asStr => exact sim_noText <| sim_query <| sim_discard <| (sim_look hs).mono (fun _ _ _ ⟨h1, h2⟩ => by rw [h1, h2]; exact hs.asStr) fun _ h => h
  | asBytes =>
    refine sim_noText <| sim_query <| sim_bind (sim_asRefBytes (valid_le hs)) fun _ _ _ ⟨h1, h2, h3⟩ => ?_
    subst h1 h3
    dsimp only
    rw [← bind_pure (load _ 0 _), ← bind_pure (Borrow.readAt _ _ _)]
    refine sim_load_then (by simp) (sim_pure ?_)
    rw [h2, valid_bytes hs]
    exact hs.asRefBytes
  | display =>
    refine sim_noText <| sim_call <| sim_bind (sim_reading hs) fun _ _ _ ⟨h1, h2⟩ => ?_
    subst h1 h2
    refine sim_get ?_
    unfold ArrayString.display
    dsimp only
    rw [hs.asStr]
    exact sim_lift (fun _ _ => rfl) fun _ _ => trivial
  | len => exact sim_noText <| sim_query <| sim_discard <| sim_len.mono (fun _ _ _ ⟨h1, _, h3⟩ => by rw [h1, h3]; rfl) fun _ h => h
  | isEmpty =>
    refine sim_noText <| sim_query <| sim_discard ?_
    rw [← bind_pure (Borrow.asRefStr _)]
    refine sim_bind (sim_asRefStr hs) fun _ _ _ ⟨h1, h2, h3⟩ => ?_
    subst h1 h3
    refine sim_pure ?_
    unfold ArrayString.isEmpty
    rw [hs.asRefStr, h2, valid_length hs]
    show Res.ok _ = _
    cases utf8 cs <;> rfl
  | capacity => exact sim_noText <| sim_query <| sim_pure rfl
  | eqStr w =>
    dsimp only [exec, oneText]
    refine sim_givenText (hK _ (by simp [Borrow.texts])) fun g' hk ht => ?_
    refine sim_query <| sim_passShared fun _ => sim_bind (sim_reading (cs := cs) (hk ▸ hs)) fun _ _ _ ⟨h1, h2⟩ => ?_
    subst h1 h2
    rw [← bind_pure (Borrow.readAt _ _ _)]
    refine sim_load_then rfl (sim_pure ?_)
    rw [slice_text ht]
    unfold ArrayString.eqStr
    rw [(show Holds (strOf N _) cs from hk ▸ hs).asStr]
    rfl
  | hash =>
    refine sim_noText <| sim_query ?_
    rw [← bind_pure (Borrow.reading _)]
    refine sim_bind (sim_reading hs) fun _ _ _ ⟨h1, h2⟩ => ?_
    subst h1 h2
    refine sim_pure ?_
    unfold ArrayString.hash
    rw [hs.asStr]
    rfl

end Verif.Machine
