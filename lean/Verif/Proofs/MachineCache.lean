import Verif.Model.MachineCache
import Verif.Proofs.MachineOps

/-!
# The calls of a `CacheString` on bytes do what they do on the string
-/

namespace Verif.Machine
open Spec
open Borrow (Rules Tag World Settled)

variable {R : Rules} {N K : Nat} {ε α β : Type} {b : Bytes} {g : Nat → UInt8} {self caller arg : Tag} {cs : List Char}
  {E : (Nat → UInt8) → Prop}

theorem sim_deref : Sim K b g (Cache.deref caller : M (Mem R N) ε Tag) (Borrow.Cache.deref caller) (Same g) E :=
  sim_then sim_retagShared fun _ => sim_through

theorem sim_derefMut : Sim K b g (Cache.derefMut caller : M (Mem R N) ε Tag) (Borrow.Cache.derefMut caller) (Same g) E :=
  sim_then sim_retagUnique fun _ => sim_throughMut

/-- It does not panic or fail. -/
def Fine (n : M (World R N) ε α) : Prop := ∀ w, (∃ a, (n w).1 = .ok a) ∨ (n w).1 = .ub

theorem fine_bind {n : M (World R N) ε α} {f : α → M (World R N) ε β} (h : Fine n) (hf : ∀ a, Fine (f a)) : Fine (n >>= f) := by
  intro w
  show (∃ a, (M.bind n f w).1 = .ok a) ∨ (M.bind n f w).1 = .ub
  unfold M.bind
  obtain ⟨x, hx⟩ : ∃ x, n w = x := ⟨_, rfl⟩
  obtain ⟨r, w'⟩ := x
  have := h w
  rw [hx] at this ⊢
  rcases this with ⟨a, h1⟩ | h1 <;> dsimp only at h1 <;> subst h1
  · exact hf a w'
  · exact Or.inr rfl

theorem fine_touch {lo hi : Nat} {f : R.St → Option R.St} : Fine (Borrow.touch lo hi f : M (World R N) ε Unit) := by
  intro w
  unfold Borrow.touch
  split
  · exact Or.inl ⟨_, rfl⟩
  · exact Or.inr rfl

theorem fine_retagUnique {t : Tag} {lo hi : Nat} {p : Bool} : Fine (Borrow.retagUnique t lo hi p : M (World R N) ε Tag) :=
  fine_bind (fun _ => Or.inl ⟨_, rfl⟩) fun _ => fine_bind fine_touch fun _ _ => Or.inl ⟨_, rfl⟩

theorem fine_derefMut : Fine (Borrow.Cache.derefMut caller : M (World R N) ε Tag) :=
  fine_bind fine_retagUnique fun _ => fine_bind fine_retagUnique fun _ => fine_bind fine_retagUnique fun _ =>
    fine_bind fine_touch fun _ => fine_retagUnique

/-- A reference made before a call. -/
theorem simCall_then {o : Option (List Char)} {m : M (Mem R N) ε α} {n : M (World R N) ε α} {f : α → M (Mem R N) ε β}
    {f' : α → M (World R N) ε β} (h : Sim K [] g m n (Same g) (fun _ => True)) (hn : Fine n)
    (hf : ∀ a, SimCall o K g (f a) (f' a)) : SimCall o K g (m >>= f) (n >>= f') := by
  intro s hs r w' e hr
  obtain ⟨x, hx⟩ : ∃ x, n (abs s) = x := ⟨_, rfl⟩
  obtain ⟨r1, w1⟩ := x
  change M.bind n f' (abs s) = _ at e
  unfold M.bind at e
  rw [hx] at e
  have := hn (abs s)
  rw [hx] at this
  rcases this with ⟨a, h1⟩ | h1
  · dsimp only at h1
    subst h1
    obtain ⟨r2, s2, k1, k2, _, k4⟩ := h s hs .nil _ _ hx ⟨nofun, nofun⟩
    cases r2 with
    | ok c =>
      obtain ⟨h1, h2⟩ := k4
      subst h1
      obtain ⟨s', l1, l2, l3, l4⟩ := hf c s2 h2 r w' (by rw [k2]; exact e) hr
      refine ⟨s', ?_, l2, l3, l4⟩
      show M.bind m f s = _
      unfold M.bind
      rw [k1]
      exact l1
    | _ => exact k4.elim
  · dsimp only at h1
    subst h1
    cases e
    exact not_settled_ub hr

theorem sim_cacheReading (h : Holds (strOf N g) cs) :
    Sim K b g (Cache.reading caller : M (Mem R N) ε Bytes) (Borrow.Cache.reading caller) (fun x _ g' => x = utf8 cs ∧ g' = g) E :=
  sim_callShared fun _ => sim_reading h

theorem sim_cacheIndex {i : IdxU8} (h : Holds (strOf N g) cs) :
    Sim K b g (Cache.index caller i : M (Mem R N) ε _) (Borrow.Cache.index caller i) (fun a c _ => a = c) E := by
  refine sim_bind (sim_refSlice (sim_callShared fun _ => sim_indexRef h)) fun ⟨a, x, y⟩ ⟨a', x', y', t⟩ _ ⟨h1, h2, h3, h4, h5⟩ => ?_
  dsimp only at h1 h2 h3 h4
  subst h1 h2 h3 h5
  dsimp only
  have := h4.le
  rw [← bind_pure (load _ _ _)]
  exact sim_load_then (by omega) (sim_pure h4.slice)

theorem sim_cacheIndexMutOn {i : IdxU8} (h : Holds (strOf N g) cs) :
    Sim K b g (Cache.indexMutOn self i : M (Mem R N) ε _) (Borrow.Cache.indexMutOn self i) (fun a c g' => a = c ∧ g' = g ∧
      i.toUsize.resolve (byteLen cs) = some a.2 ∧ ∃ t, Str.get? (utf8 cs) a.2.1 a.2.2 = some t ∧ Slice N g a.2.1 a.2.2 t) E := by
  refine sim_bind (sim_callMut fun _ => sim_indexMutOn h) fun ⟨v, x, y⟩ _ _ ⟨e1, e2, e3, t, e4, e5⟩ => ?_
  subst e1 e2
  exact sim_then sim_retagUnique fun _ => sim_pure ⟨rfl, rfl, e3, t, e4, e5⟩

theorem sim_cacheEditSlice {i : IdxU8} {e : Edit} (h : Holds (strOf N g) cs) :
    Sim K b g (Cache.editSlice caller i e.onBytes : M (Mem R N) ε Unit) (Borrow.Cache.editSlice caller i e.onBytes)
      (fun a c _ => a = c) E := by
  refine sim_bind (sim_callMut fun _ => sim_cacheIndexMutOn h) fun ⟨v, x, y⟩ _ _ ⟨e1, e2, e3, t, e4, e5⟩ => ?_
  subst e1 e2
  dsimp only at e3 e4 e5 ⊢
  have e6 := e5
  obtain ⟨_, mid, _, _, _, _, rfl⟩ := e6
  exact sim_then sim_retagUnique fun _ => sim_rewrite e5 (indexMut_holds h e3 e4)

variable [ValidCapacity N]

theorem sim_cacheWriteStr {x : Bytes} (hx : Part b x) (hg : Valid N g) :
    Sim K b g (Cache.writeStr self arg x.length : M (Mem R N) _ _) (Borrow.Cache.writeStr self arg x) (Good N) (Valid N) :=
  sim_passShared fun _ => sim_callMut fun _ => sim_writeStr hx hg

theorem sim_cacheWriteAll {l : List Bytes} (hl : ∀ s ∈ l, ∃ w, s = utf8 w) (hK : ∀ s ∈ l, s.length ≤ K) (hg : Valid N g) :
    Sim K [] g (Cache.writeAll self arg l : M (Mem R N) _ _) (Borrow.Cache.writeAll self arg l) (fun a c _ => a = c)
      (fun _ => True) := by
  induction l generalizing g with
  | nil => exact sim_pure rfl
  | cons s l ih =>
    have ih' := fun {g} => ih (g := g) (fun s hs => hl s (List.mem_cons_of_mem _ hs)) fun s hs => hK s (List.mem_cons_of_mem _ hs)
    unfold Cache.writeAll Borrow.Cache.writeAll
    split
    · exact ih' hg
    · refine sim_place (hK s (by simp)) fun ht => sim_bind (sim_given ht <| (sim_callMut fun _ =>
        sim_cacheWriteStr ⟨List.prefix_refl _, hl s (by simp)⟩ (valid_congr strOf_placed.symm hg)).mono (fun _ _ _ h => h.2) fun _ _ => trivial)
        fun _ _ _ h => ih' h

/-- The same outcome, for every call. -/
theorem sim_cacheExec {op : Op} (hg : Valid N g) (hK : ∀ t ∈ Borrow.texts op, byteLen t ≤ K) :
    SimCall (oneText op) K g (Cache.exec caller arg op : M (Mem R N) _ _) (Borrow.Cache.exec caller arg op) := by
  have hg' := hg
  obtain ⟨cs, hs⟩ := hg
  have inner : SimCall (oneText op) K g (exec caller arg op : M (Mem R N) _ _) (Borrow.exec caller arg op) := sim_exec hg' hK
  have through : SimCall (oneText op) K g (Cache.derefMut caller >>= fun v => exec v arg op : M (Mem R N) _ _)
      (Borrow.Cache.derefMut caller >>= fun v => Borrow.exec v arg op) :=
    simCall_then sim_derefMut fine_derefMut fun _ => sim_exec hg' hK
  cases op with
  | new => exact inner
  | default => exact inner
  | tryFromIterator => exact inner
  | fromIteratorTruncate => exact inner
  | collectStrs => exact inner
  | tryFromChars => exact inner
  | fromCharsTruncate => exact inner
  | collectChars => exact inner
  | tryFromUtf16 => exact inner
  | fromUtf16Truncate => exact inner
  | fromUtf16LossyTruncate => exact inner
  | capacity => exact inner
  | tryPushStr => exact through
  | pushStrTruncate => exact through
  | tryPush => exact through
  | truncate => exact through
  | pop => exact through
  | trim => exact through
  | remove => exact through
  | retain => exact through
  | tryInsert => exact through
  | tryInsertStr => exact through
  | insertStrTruncate => exact through
  | clear => exact through
  | drain => exact through
  | replaceRange => exact through
  | asMutStr => exact through
  | tryFromStr w =>
    dsimp only [Cache.exec, oneText]
    refine sim_givenText (hK _ (by simp [Borrow.texts])) fun _ _ ht => ?_
    exact sim_construct (sim_passShared fun _ => sim_tryFromStr (slice_text ht) ⟨_, rfl⟩ rfl)
  | parse w =>
    dsimp only [Cache.exec, oneText]
    refine sim_givenText (hK _ (by simp [Borrow.texts])) fun _ _ ht => ?_
    exact sim_construct (sim_passShared fun _ => sim_tryFromStr (slice_text ht) ⟨_, rfl⟩ rfl)
  | fromStrTruncate w =>
    dsimp only [Cache.exec, oneText]
    refine sim_givenText (hK _ (by simp [Borrow.texts])) fun _ _ ht => ?_
    exact sim_construct (sim_passShared fun _ => sim_fromStrTruncate (slice_text ht) ⟨_, rfl⟩)
  | from_ w =>
    dsimp only [Cache.exec, oneText]
    refine sim_givenText (hK _ (by simp [Borrow.texts])) fun _ _ ht => ?_
    exact sim_construct (sim_passShared fun _ => sim_fromStrTruncate (slice_text ht) ⟨_, rfl⟩)
  | splitOff i =>
    refine sim_noText <| sim_call <| sim_bind ((sim_callMut fun _ => sim_callMut fun _ => sim_splitOff hg').mono (fun _ _ _ h => h) fun _ _ => trivial)
      fun s _ _ ⟨h1, h2, cs, h3⟩ => ?_
    subst h1
    refine sim_bind ((sim_withLocal (E' := fun _ => True)
      (Q' := fun a _ _ => a = utf8 cs) h3.1 fun t => ?_).mono (fun _ _ _ h => h) fun _ _ => trivial)
      fun ⟨x, s⟩ ⟨y, s'⟩ _ ⟨e1, _, g2, e3, e4⟩ => ?_
    · exact sim_then sim_deref fun _ =>
        (sim_look (cs := cs) (by rw [strOf_inner h3.1]; exact h3)).mono (fun _ _ _ h => h.1) fun _ h => h
    · dsimp only at e4 ⊢
      subst e4
      rw [h3.asStr]
      exact sim_pure rfl
  | extendChars w => exact sim_noText <| sim_method fun _ => sim_callMut fun _ => sim_extend sim_fromCharsTruncate hg'
  | extendStrs ws =>
    exact sim_noText <| sim_method fun _ => sim_callMut fun _ => sim_extend (sim_fromIteratorTruncate (strs ws)
      (strsLe fun w hw => hK w (by simpa [Borrow.texts] using hw))) hg'
  | add w =>
    dsimp only [Cache.exec, oneText]
    refine sim_givenText (hK _ (by simp [Borrow.texts])) fun _ hk ht => ?_
    obtain ⟨_, hs⟩ := hk.valid hg'
    exact sim_construct (sim_loadString (sim_passShared fun _ => sim_addTo hs (slice_text ht) ⟨_, rfl⟩))
  | writeStr w =>
    dsimp only [Cache.exec, oneText]
    refine sim_givenText (hK _ (by simp [Borrow.texts])) fun _ hk _ => ?_
    exact sim_method fun _ =>
      (sim_cacheWriteStr part_self (hk.valid hg')).mono (fun _ _ _ h => h.1) fun _ _ => trivial
  | writeFmt ws =>
    refine sim_noText <| sim_method fun _ => sim_callMut fun _ => sim_cacheWriteAll (fun s hs => ?_) (fun s hs => ?_) hg'
    · obtain ⟨w, _, rfl⟩ := List.mem_map.1 hs
      exact ⟨w, rfl⟩
    · obtain ⟨w, hw, rfl⟩ := List.mem_map.1 hs
      rw [length_utf8]
      exact hK w hw
  | index i => exact sim_noText <| sim_call (sim_cacheIndex hs)
  | indexMut i e => exact sim_noText <| sim_call (sim_cacheEditSlice hs)
  | asStr =>
    exact sim_noText <| sim_query <| sim_then sim_deref fun _ => sim_discard <|
      (sim_look hs).mono (fun _ _ _ ⟨h1, h2⟩ => by rw [h1, h2]; exact hs.asStr) fun _ h => h
  | asBytes =>
    refine sim_noText <| sim_query <| sim_bind (sim_callRef fun _ => sim_asRefBytes (valid_le hs)) fun _ _ _ ⟨h1, h2, h3⟩ => ?_
    subst h1 h3
    dsimp only
    rw [← bind_pure (load _ 0 _), ← bind_pure (Borrow.readAt _ _ _)]
    refine sim_load_then (by simp) (sim_pure ?_)
    rw [h2, valid_bytes hs]
    exact hs.asRefBytes
  | display =>
    refine sim_noText <| sim_call <| sim_bind (sim_cacheReading hs) fun _ _ _ ⟨h1, h2⟩ => ?_
    subst h1 h2
    refine sim_get ?_
    unfold ArrayString.display
    dsimp only
    rw [hs.asStr]
    exact sim_lift (fun _ _ => rfl) fun _ _ => trivial
  | len =>
    exact sim_noText <| sim_query <| sim_then sim_deref fun _ => sim_discard <|
      sim_len.mono (fun _ _ _ ⟨h1, _, h3⟩ => by rw [h1, h3]; rfl) fun _ h => h
  | isEmpty =>
    refine sim_noText <| sim_query <| sim_then sim_deref fun _ => sim_discard ?_
    rw [← bind_pure (Borrow.asRefStr _)]
    refine sim_bind (sim_asRefStr hs) fun _ _ _ ⟨h1, h2, h3⟩ => ?_
    subst h1 h3
    refine sim_pure ?_
    unfold ArrayString.isEmpty
    rw [hs.asRefStr, h2, valid_length hs]
    show Res.ok _ = _
    cases utf8 cs <;> rfl
  | eqStr w =>
    dsimp only [Cache.exec, oneText]
    refine sim_givenText (hK _ (by simp [Borrow.texts])) fun g' hk ht => ?_
    refine sim_query <| sim_passShared fun _ => sim_callShared fun _ => sim_passShared fun _ =>
      sim_bind (sim_reading (cs := cs) (hk ▸ hs)) fun _ _ _ ⟨h1, h2⟩ => ?_
    subst h1 h2
    rw [← bind_pure (Borrow.readAt _ _ _)]
    refine sim_load_then rfl (sim_pure ?_)
    rw [slice_text ht]
    unfold ArrayString.eqStr
    rw [(show Holds (strOf N _) cs from hk ▸ hs).asStr]
    rfl
  | hash =>
    refine sim_noText <| sim_query ?_
    rw [← bind_pure (Borrow.Cache.reading _)]
    refine sim_bind (sim_cacheReading hs) fun _ _ _ ⟨h1, h2⟩ => ?_
    subst h1 h2
    refine sim_pure ?_
    unfold ArrayString.hash
    rw [hs.asStr]
    rfl

end Verif.Machine
