import Verif.Model.Machine
import Verif.Proofs.FootprintText

/-! The methods written with loads and stores do what the methods of `Model/Borrow*` do: the relation, and the
functions that handle tags. -/

namespace Verif.Machine
open Spec
open Borrow (Rules Tag World Settled settled_ok settled_err settled_panic emptyLit)

variable {R : Rules} {N : Nat} {ε ε' α β γ δ : Type}

/-- The string in the bytes. -/
def strOf (N : Nat) (g : Nat → UInt8) : ArrayString N := ⟨(List.range' 0 N).map g, g N⟩

/-- Forget that there is nothing but bytes. -/
def abs (m : Mem R N) : World R N := ⟨m.str, m.mem, m.next⟩

theorem abs_eq {m : Mem R N} : abs m = ⟨strOf N m.bytes, m.mem, m.next⟩ := rfl

/-- The text `b` is at the place of the argument. -/
def Text (N : Nat) (b : Bytes) (g : Nat → UInt8) : Prop := ∀ i, i < b.length → b[i]? = some (g (N + 1 + i))

theorem Text.nil {g : Nat → UInt8} : Text N [] g := nofun

theorem Text.of_prefix {b t : Bytes} {g : Nat → UInt8} (h : Text N b g) (ht : t <+: b) : Text N t g := by
  intro i hi
  obtain ⟨c, rfl⟩ := ht
  rw [← h i (by simp; omega), List.getElem?_append_left hi]

def Rel (Q : α → β → Prop) (E : Prop) : Res ε α → Res ε β → Prop
  | .ok a, .ok c => Q a c
  | .err e, .err e' => e = e' ∧ E
  | .panic, .panic => True
  | _, _ => False

/-- The text is still there, and the bytes beyond the first `K` of the argument have not changed. -/
def Keeps (N K : Nat) (b : Bytes) (g g' : Nat → UInt8) : Prop := Text N b g' ∧ ∀ l, N + K < l → g' l = g l

theorem Keeps.refl {K : Nat} {b : Bytes} {g : Nat → UInt8} (h : Text N b g) : Keeps N K b g g := ⟨h, fun _ _ => rfl⟩

theorem Keeps.trans {K : Nat} {b : Bytes} {g g' g'' : Nat → UInt8} (h : Keeps N K b g g') (h' : Keeps N K b g' g'') :
    Keeps N K b g g'' := ⟨h'.1, fun l hl => (h'.2 l hl).trans (h.2 l hl)⟩

/-- From memory with the bytes `g`, whenever `n` settles on the string, `m` does the same on the memory. -/
def Sim (K : Nat) (b : Bytes) (g : Nat → UInt8) (m : M (Mem R N) ε α) (n : M (World R N) ε β)
    (Q : α → β → (Nat → UInt8) → Prop) (E : (Nat → UInt8) → Prop) : Prop :=
  ∀ s : Mem R N, s.bytes = g → Text N b g → ∀ r w', n (abs s) = (r, w') → Settled r →
    ∃ r' s', m s = (r', s') ∧ abs s' = w' ∧ Keeps N K b g s'.bytes ∧ Rel (fun a c => Q a c s'.bytes) (E s'.bytes) r' r

variable {K : Nat} {b : Bytes} {g : Nat → UInt8} {m : M (Mem R N) ε α} {n : M (World R N) ε β}
  {Q Q' : α → β → (Nat → UInt8) → Prop} {E E' : (Nat → UInt8) → Prop}

theorem not_settled_ub {P : Prop} (h : Settled (.ub : Res ε α)) : P := absurd rfl h.1
theorem not_settled_div {P : Prop} (h : Settled (.diverge : Res ε α)) : P := absurd rfl h.2

theorem Sim.mono (h : Sim K b g m n Q E) (hq : ∀ a c g', Q a c g' → Q' a c g') (he : ∀ g', E g' → E' g') :
    Sim K b g m n Q' E' := by
  intro s hs ht r w' e hr
  obtain ⟨r', s', h1, h2, h3, h4⟩ := h s hs ht r w' e hr
  refine ⟨r', s', h1, h2, h3, ?_⟩
  cases r' <;> cases r <;> first | exact h4 | exact hq _ _ _ h4 | exact ⟨h4.1, he _ h4.2⟩

theorem sim_bind {f : α → M (Mem R N) ε γ} {f' : β → M (World R N) ε δ} {Q' : γ → δ → (Nat → UInt8) → Prop}
    (h : Sim K b g m n Q E) (hf : ∀ a c g', Q a c g' → Sim K b g' (f a) (f' c) Q' E) :
    Sim K b g (m >>= f) (n >>= f') Q' E := by
  intro s hs ht r w' e hr
  obtain ⟨x, hx⟩ : ∃ x, n (abs s) = x := ⟨_, rfl⟩
  obtain ⟨r1, w1⟩ := x
  have hr1 : Settled r1 := by
    have := Borrow.settled_of_bind e hr
    rwa [hx] at this
  obtain ⟨r1', s1, h1, h2, h3, h4⟩ := h s hs ht r1 w1 hx hr1
  change M.bind n f' _ = _ at e
  change ∃ r' s', M.bind m f s = (r', s') ∧ _
  simp only [M.bind, hx, h1] at e ⊢
  cases r1 <;> cases r1' <;> try exact h4.elim
  · subst h2
    obtain ⟨r', s', k1, k2, k3, k4⟩ := hf _ _ _ h4 s1 rfl h3.1 r w' e hr
    exact ⟨r', s', k1, k2, h3.trans k3, k4⟩
  · cases e
    exact ⟨_, _, rfl, h2, h3, h4⟩
  · cases e
    exact ⟨_, _, rfl, h2, h3, trivial⟩

theorem sim_pure {a : α} {c : β} (h : Q a c g) : Sim K b g (pure a : M (Mem R N) ε α) (pure c) Q E := by
  intro s hs ht r w' e _
  cases e
  exact ⟨_, _, rfl, rfl, by rw [hs]; exact .refl ht, by subst hs; exact h⟩

theorem sim_lift {r : Res ε α} {Q : α → α → (Nat → UInt8) → Prop} (h : ∀ a, r = .ok a → Q a a g)
    (he : ∀ e, r = .err e → E g) : Sim K b g (M.lift r : M (Mem R N) ε α) (M.lift r) Q E := by
  intro s hs ht r w' e hr
  cases e
  subst hs
  refine ⟨_, _, rfl, rfl, .refl ht, ?_⟩
  cases r with
  | ok a => exact h a rfl
  | err e => exact ⟨rfl, he e rfl⟩
  | panic => trivial
  | ub => exact not_settled_ub hr
  | diverge => exact not_settled_div hr

theorem sim_try [ErrFrom ε' ε] {r : Res ε' α} {Q : α → α → (Nat → UInt8) → Prop} (h : ∀ a, r = .ok a → Q a a g)
    (he : ∀ e, r = .err e → E g) : Sim K b g (M.try_ r : M (Mem R N) ε α) (M.try_ r) Q E :=
  sim_lift (r := r.mapErr ErrFrom.from_)
    (fun a ha => h a (by cases r <;> simp_all [Res.mapErr]))
    (fun e ha => by cases r with | err x => exact he x rfl | _ => cases ha)

/-- The string is looked at on one side only. -/
theorem sim_get {f : ArrayString N → M (World R N) ε β} (h : Sim K b g m (f (strOf N g)) Q E) :
    Sim K b g m (Borrow.get >>= f) Q E := by
  intro s hs ht r w' e hr
  exact h s hs ht r w' (by rw [← e, ← hs]; rfl) hr

theorem sim_skip_right {r : Res ε γ} {c : γ} {f : γ → M (World R N) ε β} (hr : r = .ok c) (h : Sim K b g m (f c) Q E) :
    Sim K b g m (M.lift r >>= f) Q E := by
  subst hr
  exact h

theorem sim_skip_left {r : Res ε γ} {c : γ} {f : γ → M (Mem R N) ε α} (hr : r = .ok c) (h : Sim K b g (f c) n Q E) :
    Sim K b g (M.lift r >>= f) n Q E := by
  subst hr
  exact h

theorem sim_mapErr {f : ε → ε'} (h : Sim K b g m n Q E) : Sim K b g (M.mapErr f m) (M.mapErr f n) Q E := by
  intro s hs ht r w' e hr
  obtain ⟨x, hx⟩ : ∃ x, n (abs s) = x := ⟨_, rfl⟩
  obtain ⟨r1, w1⟩ := x
  simp only [M.mapErr, hx, Prod.mk.injEq] at e
  obtain ⟨rfl, rfl⟩ := e
  obtain ⟨r1', s1, h1, h2, h3, h4⟩ := h s hs ht r1 w1 hx (Borrow.settled_mapErr hr)
  refine ⟨_, s1, by simp only [M.mapErr, h1]; rfl, h2, h3, ?_⟩
  cases r1 <;> cases r1' <;> first | exact h4 | exact ⟨congrArg f h4.1, h4.2⟩

theorem sim_tryM [ErrFrom ε ε'] (h : Sim K b g m n Q E) :
    Sim K b g (M.tryM m : M (Mem R N) ε' α) (M.tryM n) Q E := sim_mapErr h

theorem sim_attempt {V : (Nat → UInt8) → Prop} (h : Sim K b g m n Q E) :
    Sim K b g (M.attempt m : M (Mem R N) ε' _) (M.attempt n) (fun x y g' =>
      (∃ a c, x = .ok a ∧ y = .ok c ∧ Q a c g') ∨ (∃ e, x = .error e ∧ y = .error e ∧ E g')) V := by
  intro s hs ht r w' e hr
  obtain ⟨x, hx⟩ : ∃ x, n (abs s) = x := ⟨_, rfl⟩
  obtain ⟨r1, w1⟩ := x
  simp only [M.attempt, hx, Prod.mk.injEq] at e
  obtain ⟨rfl, rfl⟩ := e
  obtain ⟨r1', s1, h1, h2, h3, h4⟩ := h s hs ht r1 w1 hx (Borrow.settled_attempt hr)
  refine ⟨_, s1, by simp only [M.attempt, h1]; rfl, h2, h3, ?_⟩
  cases r1 <;> cases r1' <;> try exact h4.elim
  · exact .inl ⟨_, _, rfl, rfl, h4⟩
  · exact .inr ⟨_, by rw [h4.1], rfl, h4.2⟩
  · trivial

/-! ## Tags -/

/-- Both sides give the same, and the bytes stay. -/
def Same (g : Nat → UInt8) (a c : α) (g' : Nat → UInt8) : Prop := a = c ∧ g' = g

variable {lo hi lo' hi' : Nat} {t u self arg : Tag} {p : Bool}

/-- Applying a rule: the same memory is allowed, and the bytes stay. -/
theorem touch_run {f : R.St → Option R.St} {s : Mem R N} {r : Res ε Unit} {w' : World R N}
    (e : (Borrow.touch lo hi f : M (World R N) ε Unit) (abs s) = (r, w')) (hr : Settled r) :
    r = .ok () ∧ ∃ s', (touch lo hi f : M (Mem R N) ε Unit) s = (.ok (), s') ∧ abs s' = w' ∧ s'.bytes = s.bytes := by
  unfold Borrow.touch at e
  unfold touch
  change (if (List.range' lo (hi - lo)).all (fun l => (f (s.mem l)).isSome) then _ else _) = _ at e
  by_cases h : (List.range' lo (hi - lo)).all (fun l => (f (s.mem l)).isSome) = true
  · rw [if_pos h] at e ⊢
    cases e
    exact ⟨rfl, _, rfl, rfl, rfl⟩
  · rw [if_neg h] at e
    cases e
    exact not_settled_ub hr

theorem sim_touch {f : R.St → Option R.St} :
    Sim K b g (touch lo hi f : M (Mem R N) ε Unit) (Borrow.touch lo hi f) (Same g) E := by
  intro s hs ht r w' e hr
  obtain ⟨rfl, s', h1, h2, h3⟩ := touch_run e hr
  subst hs
  exact ⟨_, _, h1, h2, by rw [h3]; exact .refl ht, rfl, h3⟩

theorem sim_fresh : Sim K b g (fresh : M (Mem R N) ε Tag) Borrow.fresh (Same g) E := by
  intro s hs ht r w' e _
  cases e
  subst hs
  exact ⟨_, _, rfl, rfl, .refl ht, rfl, rfl⟩

theorem sim_then {f : α → M (Mem R N) ε γ} {f' : α → M (World R N) ε δ} {n : M (World R N) ε α}
    {Q' : γ → δ → (Nat → UInt8) → Prop}
    (h : Sim K b g m n (Same g) E) (hf : ∀ a, Sim K b g (f a) (f' a) Q' E) :
    Sim K b g (m >>= f) (n >>= f') Q' E :=
  sim_bind h fun a c g' ⟨h1, h2⟩ => by subst h1 h2; exact hf a

theorem sim_same {a : α} : Sim K b g (pure a : M (Mem R N) ε α) (pure a) (Same g) E := sim_pure ⟨rfl, rfl⟩

theorem sim_retagShared : Sim K b g (retagShared t lo hi p : M (Mem R N) ε Tag) (Borrow.retagShared t lo hi p) (Same g) E :=
  sim_then sim_fresh fun _ => sim_then sim_touch fun _ => sim_same

theorem sim_retagUnique : Sim K b g (retagUnique t lo hi p : M (Mem R N) ε Tag) (Borrow.retagUnique t lo hi p) (Same g) E :=
  sim_then sim_fresh fun _ => sim_then sim_touch fun _ => sim_same

theorem sim_retagTwoPhase : Sim K b g (retagTwoPhase t : M (Mem R N) ε Tag) (Borrow.retagTwoPhase t) (Same g) E :=
  sim_then sim_fresh fun _ => sim_then sim_touch fun _ => sim_same

theorem sim_release : Sim K b g (release t lo hi : M (Mem R N) ε Unit) (Borrow.release t lo hi) (Same g) E := sim_touch

theorem sim_protecting (h : Sim K b g m n Q E) : Sim K b g (protecting t lo hi m) (Borrow.protecting t lo hi n) Q E := by
  intro s hs ht r w' e hr
  obtain ⟨x, hx⟩ : ∃ x, n (abs s) = x := ⟨_, rfl⟩
  obtain ⟨r1, w1⟩ := x
  unfold Borrow.protecting at e
  rw [hx] at e
  have hr1 : Settled r1 := by
    constructor <;> rintro rfl <;> cases e
    · exact not_settled_ub hr
    · exact not_settled_div hr
  obtain ⟨r1', s1, h1, h2, h3, h4⟩ := h s hs ht r1 w1 hx hr1
  unfold protecting
  rw [h1]
  have key : ∀ (r0 : Res ε β), Settled r0 → (match (Borrow.release t lo hi : M (World R N) Empty Unit) w1 with
      | (.ok (), w) => (r0, w)
      | (_, w) => (.ub, w)) = (r, w') → ∃ s2, (release t lo hi : M (Mem R N) Empty Unit) s1 = (.ok (), s2) ∧
        abs s2 = w' ∧ s2.bytes = s1.bytes ∧ r = r0 := by
    intro r0 _ e
    obtain ⟨y, hy⟩ : ∃ y, (Borrow.release t lo hi : M (World R N) Empty Unit) w1 = y := ⟨_, rfl⟩
    obtain ⟨r2, w2⟩ := y
    rw [hy] at e
    cases r2 with
    | ok _ =>
      cases e
      subst h2
      obtain ⟨r2', s2, k1, k2, _, k4⟩ :=
        sim_release (K := K) (b := b) (E := fun _ => True) s1 rfl h3.1 _ _ hy settled_ok
      cases r2' with
      | ok _ => exact ⟨s2, k1, k2, k4.2, rfl⟩
      | _ => exact k4.elim
    | err x => exact x.elim
    | panic => cases e; exact not_settled_ub hr
    | ub => cases e; exact not_settled_ub hr
    | diverge => cases e; exact not_settled_ub hr
  cases r1 <;> cases r1' <;> try exact h4.elim
  all_goals
    obtain ⟨s2, k1, k2, k3, rfl⟩ := key _ hr1 e
    refine ⟨_, s2, by simp only [k1]; rfl, k2, by rw [k3]; exact h3, ?_⟩
    first
    | (rw [k3]; exact h4)
    | (exact ⟨h4.1, by rw [k3]; exact h4.2⟩)
    | trivial

theorem sim_passShared {body : Tag → M (Mem R N) ε α} {body' : Tag → M (World R N) ε β}
    (h : ∀ u, Sim K b g (body u) (body' u) Q E) :
    Sim K b g (passShared t lo hi body) (Borrow.passShared t lo hi body') Q E :=
  sim_then sim_retagShared fun u => sim_protecting (h u)

theorem sim_passUnique {body : Tag → M (Mem R N) ε α} {body' : Tag → M (World R N) ε β}
    (h : ∀ u, Sim K b g (body u) (body' u) Q E) :
    Sim K b g (passUnique t lo hi body) (Borrow.passUnique t lo hi body') Q E :=
  sim_then sim_retagUnique fun u => sim_protecting (h u)

theorem sim_through : Sim K b g (through t lo hi lo' hi' : M (Mem R N) ε Tag) (Borrow.through t lo hi lo' hi') (Same g) E :=
  sim_then (sim_passShared fun _ => sim_retagShared) fun _ => sim_retagShared

theorem sim_throughMut :
    Sim K b g (throughMut t lo hi lo' hi' : M (Mem R N) ε Tag) (Borrow.throughMut t lo hi lo' hi') (Same g) E :=
  sim_then sim_retagUnique fun _ => sim_then sim_retagUnique fun _ => sim_then sim_release fun _ => sim_retagUnique

theorem sim_throughRaw :
    Sim K b g (throughRaw t lo hi lo' hi' : M (Mem R N) ε Tag) (Borrow.throughRaw t lo hi lo' hi') (Same g) E :=
  sim_then sim_retagUnique fun _ => sim_then sim_fresh fun _ => sim_then sim_touch fun _ =>
    sim_then sim_retagUnique fun _ => sim_then sim_release fun _ => sim_retagUnique

theorem sim_callShared {body : Tag → M (Mem R N) ε α} {body' : Tag → M (World R N) ε β}
    (h : ∀ u, Sim K b g (body u) (body' u) Q E) : Sim K b g (callShared t body) (Borrow.callShared t body') Q E :=
  sim_then sim_retagShared fun _ => sim_passShared h

theorem sim_callMut {body : Tag → M (Mem R N) ε α} {body' : Tag → M (World R N) ε β}
    (h : ∀ u, Sim K b g (body u) (body' u) Q E) : Sim K b g (callMut t body) (Borrow.callMut t body') Q E :=
  sim_then sim_retagTwoPhase fun _ => sim_passUnique h

theorem sim_asMutPtr : Sim K b g (asMutPtr t : M (Mem R N) ε Tag) (Borrow.asMutPtr t) (Same g) E :=
  sim_then sim_retagUnique fun _ => sim_then sim_retagUnique fun _ => sim_then sim_retagUnique fun _ =>
    sim_then sim_fresh fun _ => sim_then sim_touch fun _ => sim_then sim_release fun _ => sim_same

/-- A reference to the whole text, and its length. -/
def RefTo (N : Nat) (g : Nat → UInt8) (x y : Tag × Nat) (g' : Nat → UInt8) : Prop :=
  x = y ∧ x.2 = (g N).toNat ∧ g' = g

theorem sim_callRef {body : Tag → M (Mem R N) ε (Tag × Nat)} {body' : Tag → M (World R N) ε (Tag × Nat)}
    (h : ∀ u, Sim K b g (body u) (body' u) (RefTo N g) E) :
    Sim K b g (callRef t body) (Borrow.callRef t body') (RefTo N g) E :=
  sim_bind (sim_callShared h) fun _ _ _ ⟨h1, h2, h3⟩ => by
    subst h1 h3
    exact sim_then sim_retagShared fun _ => sim_pure ⟨rfl, h2, rfl⟩

theorem sim_passRef {body : Tag → M (Mem R N) ε (Tag × Nat)} {body' : Tag → M (World R N) ε (Tag × Nat)}
    (h : ∀ u, Sim K b g (body u) (body' u) (RefTo N g) E) :
    Sim K b g (passRef t body) (Borrow.passRef t body') (RefTo N g) E :=
  sim_bind (sim_passUnique h) fun _ _ _ ⟨h1, h2, h3⟩ => by
    subst h1 h3
    exact sim_then sim_retagUnique fun _ => sim_pure ⟨rfl, h2, rfl⟩

/-! ## Loads and stores -/

/-- The bytes at `lo .. lo + k`. -/
def sliceOf (g : Nat → UInt8) (lo k : Nat) : Bytes := (List.range' lo k).map g

theorem sliceOf_length {k : Nat} : (sliceOf g lo k).length = k := by simp [sliceOf]

theorem sliceOf_getElem? {k i : Nat} : (sliceOf g lo k)[i]? = if i < k then some (g (lo + i)) else none := by
  unfold sliceOf
  rw [List.getElem?_map]
  split
  · rw [List.getElem?_range' (by assumption)]
    simp
  · rw [List.getElem?_eq_none (by simp; omega)]
    rfl

theorem strOf_array : (strOf N g).array = sliceOf g 0 N := rfl

/-- A part of the array. -/
theorem slice_array {k : Nat} (h : lo + k ≤ N) : sliceOf g lo k = ((strOf N g).array.drop lo).take k := by
  refine List.ext_getElem? fun i => ?_
  rw [sliceOf_getElem?, List.getElem?_take, List.getElem?_drop, strOf_array, sliceOf_getElem?]
  split
  · rw [if_pos (by omega), Nat.zero_add]
  · rfl

theorem slice_text (h : Text N b g) : sliceOf g (N + 1) b.length = b := by
  refine List.ext_getElem? fun i => ?_
  rw [sliceOf_getElem?]
  split
  · rw [h i (by assumption)]
  · rw [List.getElem?_eq_none (by omega)]

theorem text_slice {x : Bytes} (h : sliceOf g (N + 1) x.length = x) : Text N x g := by
  intro i hi
  have := congrArg (·[i]?) h
  simp only [sliceOf_getElem?, if_pos hi] at this
  exact this.symm

/-- The bytes after a store. -/
def stored (g : Nat → UInt8) (lo : Nat) (x : Bytes) : Nat → UInt8 := fun l =>
  if lo ≤ l then (x[l - lo]?).getD (g l) else g l

theorem stored_out {x : Bytes} {l : Nat} (h : l < lo ∨ lo + x.length ≤ l) : stored g lo x l = g l := by
  unfold stored
  split
  · rw [List.getElem?_eq_none (by omega)]
    rfl
  · rfl

theorem stored_in {x : Bytes} {i : Nat} (h : i < x.length) : stored g lo x (lo + i) = x[i] := by
  unfold stored
  rw [if_pos (by omega), Nat.add_sub_cancel_left, List.getElem?_eq_getElem h]
  rfl

/-- A store in the array. -/
theorem strOf_stored {x : Bytes} (h : lo + x.length ≤ N) : strOf N (stored g lo x) =
    ⟨(strOf N g).array.take lo ++ x ++ (strOf N g).array.drop (lo + x.length), (strOf N g).size⟩ := by
  unfold strOf
  rw [stored_out (l := N) (by omega)]
  congr 1
  refine List.ext_getElem? fun i => ?_
  change (sliceOf (stored g lo x) 0 N)[i]? = ((sliceOf g 0 N).take lo ++ x ++ (sliceOf g 0 N).drop (lo + x.length))[i]?
  have hl : ((sliceOf g 0 N).take lo).length = lo := by simp [sliceOf_length]; omega
  rw [sliceOf_getElem?, List.append_assoc]
  by_cases h1 : i < lo
  · rw [List.getElem?_append_left (by omega), List.getElem?_take, if_pos h1, sliceOf_getElem?, stored_out (by omega)]
  · rw [List.getElem?_append_right (by omega), hl]
    by_cases h2 : i < lo + x.length
    · rw [List.getElem?_append_left (by omega), if_pos (by omega), List.getElem?_eq_getElem (by omega)]
      obtain ⟨j, rfl⟩ : ∃ j, i = lo + j := ⟨i - lo, by omega⟩
      rw [Nat.zero_add, stored_in (by omega)]
      simp
    · rw [List.getElem?_append_right (by omega), List.getElem?_drop, sliceOf_getElem?,
        show lo + x.length + (i - lo - x.length) = i by omega, stored_out (by omega)]

/-- A store of the size. -/
theorem strOf_size {x : UInt8} : strOf N (stored g N [x]) = ⟨(strOf N g).array, x⟩ := by
  unfold strOf
  congr 1
  · refine List.map_congr_left fun l hl => ?_
    have := List.mem_range'_1.1 hl
    exact stored_out (by omega)
  · exact stored_in (i := 0) (x := [x]) (by simp)

theorem Text.stored {x : Bytes} (h : Text N b g) (hx : lo + x.length ≤ N + 1) : Text N b (stored g lo x) := by
  intro i hi
  rw [h i hi, stored_out (by omega)]

/-- Loaded bytes. -/
def Loaded (g : Nat → UInt8) (lo k : Nat) (x : Bytes) (_ : Unit) (g' : Nat → UInt8) : Prop :=
  x = sliceOf g lo k ∧ g' = g

theorem sim_load {k : Nat} (h : hi = lo + k) :
    Sim K b g (load t lo k : M (Mem R N) ε Bytes) (Borrow.readAt t lo hi) (Loaded g lo k) E := by
  subst h
  intro s hs ht r w' e hr
  obtain ⟨rfl, s', h1, h2, h3⟩ := touch_run e hr
  subst hs
  refine ⟨.ok (s'.slice lo k), s', ?_, h2, by rw [h3]; exact .refl ht, ?_, h3⟩
  · show M.bind _ _ s = _
    unfold M.bind
    rw [h1]
  · rw [← h3]
    rfl

/-- A load whose bytes are given to the rest. -/
theorem sim_load_then {k : Nat} {f : Bytes → M (Mem R N) ε α} {f' : Unit → M (World R N) ε β} (h : hi = lo + k)
    (hf : Sim K b g (f (sliceOf g lo k)) (f' ()) Q E) :
    Sim K b g (load t lo k >>= f) (Borrow.readAt t lo hi >>= f') Q E :=
  sim_bind (sim_load h) fun _ _ _ ⟨h1, h2⟩ => by subst h1 h2; exact hf

theorem bind_assoc {σ : Type} (x : M σ ε α) (f : α → M σ ε β) (h : β → M σ ε γ) :
    x >>= f >>= h = x >>= fun a => f a >>= h := by
  funext s
  show M.bind (M.bind x f) h s = M.bind x (fun a => M.bind (f a) h) s
  unfold M.bind
  generalize x s = y
  rcases y with ⟨_ | _ | _ | _ | _, _⟩ <;> rfl

theorem bind_pure {σ : Type} (x : M σ ε α) : x >>= pure = x := by
  funext s
  show M.bind x M.pure s = x s
  unfold M.bind
  generalize x s = y
  rcases y with ⟨_ | _ | _ | _ | _, _⟩ <;> rfl

theorem sim_loadByte {f : UInt8 → M (Mem R N) ε α} {f' : Unit → M (World R N) ε β} (h : hi = lo + 1)
    (hf : Sim K b g (f (g lo)) (f' ()) Q E) :
    Sim K b g (loadByte t lo >>= f) (Borrow.readAt t lo hi >>= f') Q E := by
  unfold loadByte
  rw [bind_assoc]
  exact sim_load_then h hf

/-- A store, on the other side a write and an assignment. -/
theorem sim_store' {x : Bytes} {F : ArrayString N → ArrayString N} {Q : Unit → Unit → (Nat → UInt8) → Prop}
    (h : hi = lo + x.length) (hx : hi ≤ N + 1)
    (hv : strOf N (stored g lo x) = F (strOf N g)) (hq : Q () () (stored g lo x)) :
    Sim K b g (store t lo x : M (Mem R N) ε Unit) (Borrow.writeAt t lo hi >>= fun _ => Borrow.get >>= fun s => Borrow.put (F s)) Q E := by
  subst h
  intro s hs ht r w' e hr
  obtain ⟨y, hy⟩ : ∃ y, (Borrow.writeAt t lo (lo + x.length) : M (World R N) ε Unit) (abs s) = y := ⟨_, rfl⟩
  obtain ⟨r1, w1⟩ := y
  have hr1 : Settled r1 := by
    have := Borrow.settled_of_bind e hr
    rwa [hy] at this
  obtain ⟨rfl, s1, h1, h2, h3⟩ := touch_run hy hr1
  change M.bind _ _ _ = _ at e
  unfold M.bind at e
  rw [hy] at e
  cases e
  subst hs h2
  refine ⟨.ok (), { s1 with bytes := stored s1.bytes lo x }, ?_, ?_, ?_, ?_⟩
  · show M.bind _ _ s = _
    unfold M.bind
    rw [h1]
    rfl
  · show (⟨strOf N (stored s1.bytes lo x), s1.mem, s1.next⟩ : World R N) = ⟨F (strOf N s1.bytes), s1.mem, s1.next⟩
    rw [h3, hv]
  · show Keeps N K b s.bytes (stored s1.bytes lo x)
    rw [h3]
    exact ⟨ht.stored hx, fun l hl => stored_out (by omega)⟩
  · show Q () () (stored s1.bytes lo x)
    rw [h3]
    exact hq

theorem sim_store {x : Bytes} {v : ArrayString N} {Q : Unit → Unit → (Nat → UInt8) → Prop}
    (h : hi = lo + x.length) (hx : hi ≤ N + 1)
    (hv : strOf N (stored g lo x) = v) (hq : Q () () (stored g lo x)) :
    Sim K b g (store t lo x : M (Mem R N) ε Unit) (Borrow.writeAt t lo hi >>= fun _ => Borrow.put v) Q E :=
  sim_store' (F := fun _ => v) h hx hv hq

end Verif.Machine
