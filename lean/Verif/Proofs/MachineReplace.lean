import Verif.Proofs.Machine
import Verif.Proofs.Ops

/-! Loads and stores: the functions that read, and `replace_range`. -/

namespace Verif.Machine
open Spec
open Borrow (Rules Tag World Settled settled_ok settled_err settled_panic emptyLit)

variable {R : Rules} {N : Nat} {ε ε' α β : Type} {K : Nat} {b : Bytes} {g : Nat → UInt8} {E : (Nat → UInt8) → Prop}
  {m : M (Mem R N) ε α} {n : M (World R N) ε β} {Q : α → β → (Nat → UInt8) → Prop}
  {t u self arg : Tag} {lo hi k idx : Nat} {cs : List Char}

/-- The string is a text. -/
def Valid (N : Nat) (g : Nat → UInt8) : Prop := ∃ cs, Holds (strOf N g) cs

/-- What the other side computes only once is known, or undefined. -/
theorem sim_known {r : Res ε α} {β : Type} {m : M (Mem R N) ε β} {γ : Type} {f : α → M (World R N) ε γ}
    {Q : β → γ → (Nat → UInt8) → Prop} (hr : ∀ a, r = .ok a → Sim K b g m (f a) Q E) (h : r = .ub ∨ ∃ a, r = .ok a) :
    Sim K b g m (M.lift r >>= f) Q E := by
  rcases h with rfl | ⟨a, rfl⟩
  · intro s _ _ r w' e hr
    cases e
    exact not_settled_ub hr
  · exact hr a rfl

/-! ## The functions that only read -/

theorem sim_len : Sim K b g (len self : M (Mem R N) ε Nat) (Borrow.len self)
    (fun a c g' => a = (g N).toNat ∧ c = (g N).toNat ∧ g' = g) E :=
  sim_callShared fun _ => sim_loadByte rfl (sim_get (sim_pure ⟨rfl, rfl, rfl⟩))

theorem sim_len_then {f : Nat → M (Mem R N) ε α} {f' : Nat → M (World R N) ε β}
    (h : Sim K b g (f (g N).toNat) (f' (g N).toNat) Q E) : Sim K b g (len self >>= f) (Borrow.len self >>= f') Q E :=
  sim_bind sim_len fun _ _ _ ⟨h1, h2, h3⟩ => by subst h1 h2 h3; exact h

theorem valid_le (h : Holds (strOf N g) cs) : (g N).toNat ≤ N := h.2.1

theorem valid_bytes (h : Holds (strOf N g) cs) : sliceOf g 0 (g N).toNat = utf8 cs := by
  rw [slice_array (by simpa using valid_le h)]
  exact h.2.2

theorem valid_length (h : Holds (strOf N g) cs) : (g N).toNat = (utf8 cs).length := by
  rw [← valid_bytes h, sliceOf_length]

theorem sim_asRefBytes (h : (g N).toNat ≤ N) :
    Sim K b g (asRefBytes self : M (Mem R N) ε _) (Borrow.asRefBytes self) (RefTo N g) E :=
  sim_callRef fun _ => sim_len_then <| sim_skip_left (debugAssert_true (by simpa using h)) <|
    sim_then sim_retagShared fun _ => sim_then sim_through fun _ => sim_len_then <|
      sim_skip_left (if_pos h) <| sim_then sim_through fun _ => sim_pure ⟨rfl, rfl, rfl⟩

theorem sim_asRefStr (h : Holds (strOf N g) cs) :
    Sim K b g (asRefStr self : M (Mem R N) ε _) (Borrow.asRefStr self) (RefTo N g) E :=
  sim_callRef fun _ => sim_bind (sim_asRefBytes (valid_le h)) fun _ _ _ ⟨h1, h2, h3⟩ => by
    subst h1 h3
    refine sim_load_then (by simp) ?_
    rw [h2, valid_bytes h]
    refine sim_skip_left (debugAssert_true (by simp)) <| sim_bind (sim_asRefBytes (valid_le h)) fun _ _ _ ⟨h1, h2, h3⟩ => ?_
    subst h1 h3
    exact sim_skip_left (show Str.fromUtf8Unchecked (utf8 cs) = .ok (utf8 cs) by simp [Str.fromUtf8Unchecked]) <|
      sim_then sim_through fun _ => sim_pure ⟨rfl, h2, rfl⟩

theorem sim_asStr (h : Holds (strOf N g) cs) :
    Sim K b g (asStr self : M (Mem R N) ε _) (Borrow.asStr self) (RefTo N g) E :=
  sim_callRef fun _ => sim_asRefStr h

/-- `is_char_boundary` on the bytes in memory. -/
theorem sim_boundaryAt {x : Bytes} (hx : sliceOf g lo x.length = x) (hk : k = x.length) :
    Sim K b g (boundaryAt t lo k idx : M (Mem R N) ε Bool) (Borrow.readBoundary t lo k idx)
      (fun a _ g' => a = Str.isCharBoundary x idx ∧ g' = g) E := by
  subst hk
  refine sim_passShared fun u => ?_
  by_cases h : idx ≠ 0 ∧ idx < x.length
  · rw [if_pos h, if_pos h]
    have hx' := congrArg (·[idx]?) hx
    simp only [sliceOf_getElem?, if_pos h.2] at hx'
    rw [← bind_pure (Borrow.readAt u (lo + idx) (lo + idx + 1) : M (World R N) ε Unit)]
    refine sim_loadByte rfl (sim_pure ⟨?_, rfl⟩)
    unfold Str.isCharBoundary
    rw [← hx', if_neg h.1, if_neg (by omega)]
  · rw [if_neg h, if_neg h]
    refine sim_pure ⟨?_, rfl⟩
    unfold Str.isCharBoundary
    by_cases h0 : idx = 0
    · simp [h0]
    · rw [if_neg h0, if_pos (by omega)]
      simp [h0]

theorem sim_selfBoundary (h : Holds (strOf N g) cs) :
    Sim K b g (selfBoundary self idx : M (Mem R N) ε Bool) (Borrow.selfBoundary self idx)
      (fun a _ g' => a = Str.isCharBoundary (utf8 cs) idx ∧ g' = g) E :=
  sim_bind (sim_asStr h) fun _ _ _ ⟨h1, h2, h3⟩ => by
    subst h1 h3
    exact sim_boundaryAt (by rw [← valid_length h]; exact valid_bytes h) (by rw [h2, valid_length h])

/-- The bytes stay. -/
def Kept (g : Nat → UInt8) (g' : Nat → UInt8) : Prop := g' = g

theorem sim_isCharBoundary (h : Holds (strOf N g) cs) (hE : E g) :
    Sim K b g (isCharBoundary self idx : M (Mem R N) Utf8 Unit) (Borrow.isCharBoundary self idx)
      (fun _ _ g' => g' = g ∧ (strOf N g).isCharBoundary idx = .ok ()) E := by
  refine sim_bind (sim_callShared fun _ => sim_selfBoundary h) fun a _ g' ⟨h1, h2⟩ => ?_
  subst h1 h2
  refine sim_get ?_
  have : (strOf N g').isCharBoundary idx = if Str.isCharBoundary (utf8 cs) idx then .ok () else .err {} := by
    unfold ArrayString.isCharBoundary
    rw [h.asStr]
    rfl
  rw [this]
  exact sim_lift (fun _ ha => ⟨rfl, ha⟩) fun _ _ => hE

theorem sim_look (h : Holds (strOf N g) cs) : Sim K b g (look self : M (Mem R N) ε Bytes) (Borrow.look self)
    (fun x _ g' => x = utf8 cs ∧ g' = g) E :=
  sim_bind (sim_asStr h) fun _ _ _ ⟨h1, h2, h3⟩ => by
    subst h1 h3
    dsimp only
    rw [← bind_pure (load _ 0 _)]
    exact sim_load_then (by simp) (sim_pure ⟨by rw [h2, valid_bytes h], rfl⟩)

theorem sim_rangeEnd {r : RangeB} : Sim K b g (rangeEnd self r : M (Mem R N) ε Nat) (Borrow.rangeEnd self r)
    (fun a c g' => a = ArrayString.rangeEnd r (strOf N g).len ∧ c = a ∧ g' = g) E := by
  unfold rangeEnd Borrow.rangeEnd ArrayString.rangeEnd
  cases r.stop
  · exact sim_pure ⟨rfl, rfl, rfl⟩
  · exact sim_pure ⟨rfl, rfl, rfl⟩
  · exact sim_len.mono (fun _ _ _ ⟨h1, h2, h3⟩ => ⟨h1, h2.trans h1.symm, h3⟩) fun _ h => h

/-! ## `replace_range` -/

theorem sim_setSize {x : UInt8} {Q : Unit → Unit → (Nat → UInt8) → Prop} (hq : Q () () (stored g N [x])) :
    Sim K b g (setSize t x : M (Mem R N) ε Unit) (Borrow.setSize t x) Q E :=
  sim_store' (F := fun s => { s with size := x }) rfl (Nat.le_refl _) strOf_size hq

/-- What `moveTail` does to the array. -/
def tailMoved (a : Bytes) (stop cutEnd strEnd n : Nat) : Res Error Bytes :=
  if cutEnd ≠ strEnd then do
    let k ← subUsize n stop
    memCopy a cutEnd strEnd k
  else .ok a

theorem memCopy_cases {a : Bytes} {x y n : Nat} : (memCopy a x y n : Res ε Bytes) = .ub ∨
    ∃ c, (memCopy a x y n : Res ε Bytes) = .ok c := by
  unfold memCopy
  split
  · exact .inr ⟨_, rfl⟩
  · exact .inl rfl

theorem memCopyFrom_cases {a c : Bytes} {x n : Nat} : (memCopyFrom a c x n : Res ε Bytes) = .ub ∨
    ∃ d, (memCopyFrom a c x n : Res ε Bytes) = .ok d := by
  unfold memCopyFrom
  split
  · exact .inr ⟨_, rfl⟩
  · exact .inl rfl

theorem sim_moveTail {p : Tag} {stop cutEnd strEnd : Nat} :
    Sim K b g (moveTail self p stop cutEnd strEnd : M (Mem R N) Error Unit) (Borrow.moveTail self p stop cutEnd strEnd)
      (fun _ _ g' => ∃ a, tailMoved (strOf N g).array stop cutEnd strEnd (g N).toNat = .ok a ∧
        strOf N g' = ⟨a, (strOf N g).size⟩) (fun _ => False) := by
  unfold moveTail Borrow.moveTail tailMoved
  by_cases h : cutEnd ≠ strEnd
  · simp only [if_pos h]
    refine sim_len_then ?_
    refine sim_bind (sim_lift (r := subUsize (g N).toNat stop)
      (Q := fun a c g' => a = c ∧ g' = g ∧ (subUsize (g N).toNat stop : Res Error Nat) = .ok a)
      (fun a ha => ⟨rfl, rfl, ha⟩) (fun e he => by
        unfold subUsize at he
        split at he
        · cases he
        · unfold overflow at he
          split at he <;> cases he)) fun k k' g' ⟨h1, h2, h3⟩ => ?_
    subst h1 h2
    refine sim_get <| sim_known (fun a ha => ?_) memCopy_cases
    have ha' := ha
    unfold memCopy at ha'
    split at ha'
    · rename_i hb
      have ha' := Res.ok.inj ha'
      have hN : (strOf N g').array.length = N := by simp [strOf]
      rw [hN] at hb
      have hl : (sliceOf g' cutEnd k).length = k := sliceOf_length
      have hv : strOf N (stored g' strEnd (sliceOf g' cutEnd k)) = ⟨a, (strOf N g').size⟩ := by
        rw [strOf_stored (by omega), hl, slice_array hb.1, ha']
      refine sim_load_then rfl <| sim_store (by rw [hl]) (by omega) hv ⟨a, ?_, hv⟩
      rw [h3]
      exact ha
    · cases ha'
  · simp only [if_neg h]
    exact sim_pure ⟨_, rfl, rfl⟩

/-- What `copyText` does to the array. -/
def textCopied (a : Bytes) (cutStart : Nat) (str : Bytes) : Res Error Bytes :=
  if ¬ str.isEmpty then memCopyFrom a str cutStart str.length else .ok a

theorem sim_with_text (h : Text N b g → Sim K b g m n Q E) : Sim K b g m n Q E :=
  fun s hs ht => h ht s hs ht

theorem sim_copyText {p text : Tag} {cutStart : Nat} {x : Bytes} (hx : x <+: b) :
    Sim K b g (copyText text p cutStart x.length : M (Mem R N) Error Unit) (Borrow.copyText text p cutStart x)
      (fun _ _ g' => ∃ a, textCopied (strOf N g).array cutStart x = .ok a ∧
        strOf N g' = ⟨a, (strOf N g).size⟩) (fun _ => False) := by
  refine sim_with_text fun ht => ?_
  have ht := ht.of_prefix hx
  unfold copyText Borrow.copyText textCopied
  by_cases h : x.length ≠ 0
  · have h' : ¬ x.isEmpty = true := by
      cases x with
      | nil => exact absurd rfl h
      | cons => simp
    simp only [if_pos h, if_pos h']
    refine sim_then sim_through fun q => sim_get <| sim_known (fun a ha => ?_) memCopyFrom_cases
    have ha' := ha
    unfold memCopyFrom at ha'
    split at ha'
    · rename_i hb
      have ha' := Res.ok.inj ha'
      have hN : (strOf N g).array.length = N := by simp [strOf]
      rw [hN] at hb
      have hv : strOf N (stored g cutStart x) = ⟨a, (strOf N g).size⟩ := by
        rw [strOf_stored (by omega), ← ha', List.take_length]
      refine sim_load_then rfl ?_
      rw [slice_text ht]
      exact sim_store rfl (by omega) hv ⟨a, ha, hv⟩
    · cases ha'
  · have h' : ¬ ¬ x.isEmpty = true := by
      cases x with
      | nil => simp
      | cons => simp at h
    simp only [if_neg h, if_neg h']
    exact sim_pure ⟨_, rfl, rfl⟩

/-- Where the text that `replace_range` writes comes from: a part of the argument that is a text. -/
def Part (b x : Bytes) : Prop := x <+: b ∧ ∃ w, x = utf8 w

theorem sim_once {γ : Type} {r : Res ε γ} {f : γ → M (Mem R N) ε α} {f' : γ → M (World R N) ε β} (hE : ∀ e, r ≠ .err e)
    (h : ∀ a, r = .ok a → Sim K b g (f a) (f' a) Q E) : Sim K b g (M.lift r >>= f) (M.lift r >>= f') Q E :=
  sim_bind (sim_lift (Q := fun a c g' => a = c ∧ g' = g ∧ r = .ok a) (fun _ ha => ⟨rfl, rfl, ha⟩)
    (fun e he => absurd he (hE e))) fun _ _ _ ⟨h1, h2, h3⟩ => by subst h1 h2; exact h _ h3

theorem sim_try_then [ErrFrom ε' ε] {γ : Type} {r : Res ε' γ} {f : γ → M (Mem R N) ε α} {f' : γ → M (World R N) ε β} (hE : E g)
    (h : ∀ a, r = .ok a → Sim K b g (f a) (f' a) Q E) : Sim K b g (M.try_ r >>= f) (M.try_ r >>= f') Q E :=
  sim_bind (sim_try (Q := fun a c g' => a = c ∧ g' = g ∧ r = .ok a) (fun _ ha => ⟨rfl, rfl, ha⟩)
    (fun _ _ => hE)) fun _ _ _ ⟨h1, h2, h3⟩ => by subst h1 h2; exact h _ h3

theorem overflow_no {a : Nat} (e : ε) : (overflow a : Res ε Nat) ≠ .err e := by
  unfold overflow
  split <;> nofun

theorem addUsize_no {a c : Nat} (e : ε) : (addUsize a c : Res ε Nat) ≠ .err e := by
  unfold addUsize
  split
  · nofun
  · exact overflow_no e

theorem subUsize_no {a c : Nat} (e : ε) : (subUsize a c : Res ε Nat) ≠ .err e := by
  unfold subUsize
  split
  · nofun
  · exact overflow_no e

theorem ptrAdd_no {a c : Nat} (e : ε) : (ptrAdd a c : Res ε Nat) ≠ .err e := by
  unfold ptrAdd
  split <;> nofun

theorem replaceRange_valid [ValidCapacity N] {s s' : ArrayString N} {w : List Char} {r : RangeB} (hs : Holds s cs)
    (h : ArrayString.replaceRange r (utf8 w) s = (.ok (), s')) : ∃ cs, Holds s' cs := by
  rcases replaceRange_total ValidCapacity.le r w hs with ⟨s1, cs1, h1, h2⟩ | ⟨e, h1⟩
  · rw [h] at h1
    cases h1
    exact ⟨_, h2⟩
  · rw [h] at h1
    cases h1

theorem empty_iff {x : Bytes} : x.isEmpty = true ↔ x.length = 0 := by cases x <;> simp

theorem sim_replaceRangeBody [ValidCapacity N] {text : Tag} {r : RangeB} {x : Bytes} (hx : Part b x) (hg : Valid N g) :
    Sim K b g (replaceRangeBody self text r x.length : M (Mem R N) Error Unit) (Borrow.replaceRangeBody self text r x)
      (fun _ _ => Valid N) (Valid N) := by
  obtain ⟨cs, hs⟩ := hg
  obtain ⟨hx, w, hw⟩ := hx
  unfold replaceRangeBody Borrow.replaceRangeBody
  refine sim_bind sim_rangeEnd fun stop stop' g' ⟨h1, h2, h3⟩ => ?_
  subst h3 h2
  by_cases h0 : ArrayString.rangeStart r = stop' ∧ x.length = 0
  · have h0' : ArrayString.rangeStart r = stop' ∧ x.isEmpty = true := by rwa [empty_iff]
    rw [if_pos h0, if_pos h0']
    exact sim_pure ⟨cs, hs⟩
  have h0' : ¬ (ArrayString.rangeStart r = stop' ∧ x.isEmpty = true) := by rwa [empty_iff]
  rw [if_neg h0, if_neg h0']
  refine sim_try_then ⟨cs, hs⟩ fun _ e1 => sim_len_then ?_
  refine sim_try_then ⟨cs, hs⟩ fun _ e2 => sim_try_then ⟨cs, hs⟩ fun _ e3 => ?_
  refine sim_bind (sim_tryM (sim_isCharBoundary hs ⟨cs, hs⟩)) fun _ _ _ ⟨h3, e4⟩ => ?_
  subst h3
  refine sim_bind (sim_tryM (sim_isCharBoundary hs ⟨cs, hs⟩)) fun _ _ g' ⟨h3, e5⟩ => ?_
  subst h3
  refine sim_len_then <| sim_once addUsize_no fun a e6 => sim_once addUsize_no fun c e7 =>
    sim_once subUsize_no fun total e8 => sim_try_then ⟨cs, hs⟩ fun _ e9 => ?_
  refine sim_then sim_asMutPtr fun p => sim_once ptrAdd_no fun cutStart f1 => sim_once ptrAdd_no fun cutEnd f2 =>
    sim_once ptrAdd_no fun strEnd f3 => ?_
  refine sim_bind (sim_moveTail.mono (fun _ _ _ h => h) fun _ h => h.elim) fun _ _ g1 ⟨a1, m1, m2⟩ => ?_
  refine sim_bind ((sim_copyText hx).mono (fun _ _ _ h => h) fun _ h => h.elim) fun _ _ g2 ⟨a2, m3, m4⟩ => ?_
  have hsize : g2 N = g' N := by
    have h1 := congrArg ArrayString.size m4
    have h2 := congrArg ArrayString.size m2
    exact h1.trans h2
  refine sim_len_then ?_
  rw [hsize]
  refine sim_once addUsize_no fun a' e6' => sim_once addUsize_no fun c' e7' =>
    sim_once subUsize_no fun total' e8' => ?_
  rw [e6] at e6'
  cases e6'
  rw [e7] at e7'
  cases e7'
  rw [e8] at e8'
  cases e8'
  refine sim_setSize ?_
  unfold Valid
  rw [strOf_size, m4]
  subst hw
  rw [m2] at m3
  refine replaceRange_valid (r := r) (w := w) hs (s' := ⟨a2, intoLossy total⟩) ?_
  have hlen : (strOf N g').len = (g' N).toNat := rfl
  rw [hlen] at h1
  unfold ArrayString.replaceRange
  have hk : ∃ k, (subUsize (g' N).toNat stop' : Res Error Nat) = .ok k := by
    unfold isInsideBoundary at e2
    split at e2
    · exact ⟨_, if_pos (by assumption)⟩
    · cases e2
  obtain ⟨k, hk⟩ := hk
  have m1' : (if cutEnd ≠ strEnd then memCopy (strOf N g').array cutEnd strEnd k else .ok (strOf N g').array :
      Res Error Bytes) = .ok a1 := by
    rw [← m1]
    unfold tailMoved
    rw [hk]
    rfl
  have m3' : (if ¬ (utf8 w).isEmpty then memCopyFrom a1 (utf8 w) cutStart (utf8 w).length else .ok a1 : Res Error Bytes) =
      .ok a2 := m3
  simp only [M.bind_apply, M.self_apply, hlen, ← h1, if_neg h0', M.try_apply, M.lift_apply, e1, e2, e3, e4, e5, e6, e7, e8, e9,
    f1, f2, f3, hk, m1', m3', Res.mapErr_ok]
  rfl

theorem sim_replaceRangeOn [ValidCapacity N] {r : RangeB} {x : Bytes} (hx : Part b x) (hg : Valid N g) :
    Sim K b g (replaceRangeOn self arg r x.length : M (Mem R N) Error Unit) (Borrow.replaceRangeOn self arg r x)
      (fun _ _ => Valid N) (Valid N) :=
  sim_passShared fun _ => sim_then sim_through fun _ => sim_then sim_through fun _ => sim_replaceRangeBody hx hg

theorem part_nil : Part b [] := ⟨List.nil_prefix, [], rfl⟩

end Verif.Machine
