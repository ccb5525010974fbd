import Verif.Model.Client
import Verif.Props.BorrowOps

/-!
# Programs that keep references

The mutable references that a program may use are a chain above the reference of the caller; the shared
ones are side references on top of the newest.
-/

namespace Verif.Borrow
open Spec

variable {R : Rules} {L : Laws R} {N : Nat} {ε α β : Type} {caller arg root : Tag} {top : Nat} {w : World R N}
  {g : List Ref} {ms : List Held} {T : Nat → List Tag}

/-! ## The chain -/

/-- The mutable references to a byte, newest first, above the temporary ones `g`. -/
def chain (g : List Ref) : List Held → Nat → List Ref
  | [] => fun _ => g
  | h :: ms => push ⟨h.tag, .used, false⟩ h.lo h.hi (chain g ms)

theorem top_drop {l : Nat} {st : R.St} : ∀ (ms₁ : List Held),
    Top L root (chain g (ms₁ ++ ms) l) st → Top L root (chain g ms l) st
  | [], h => h
  | m :: ms₁, h => by
    rw [List.cons_append, chain] at h
    by_cases hl : m.lo ≤ l ∧ l < m.hi
    · rw [push_in hl] at h; exact top_drop ms₁ (Top.pop h rfl)
    · rw [push_out hl] at h; exact top_drop ms₁ h

theorem top_bare {st : R.St} : ∀ (g : List Ref), (∀ r ∈ g, r.protect = false) → Top L root g st → Top L root [] st
  | [], _, h => h
  | r :: g, hg, h => top_bare g (fun r hr => hg r (List.mem_cons_of_mem _ hr)) (Top.pop h (hg r List.mem_cons_self))

theorem top_root {l : Nat} {st : R.St} (hg : ∀ r ∈ g, r.protect = false) (h : Top L root (chain g ms l) st) :
    Top L root [] st :=
  top_bare g hg (top_drop (ms := []) ms (by rw [List.append_nil]; exact h))

theorem useAll_chain {l : Nat} : useAll (chain g ms l) = chain (useAll g) ms l := by
  induction ms with
  | nil => rfl
  | cons m ms ih =>
    rw [chain, chain]
    by_cases hl : m.lo ≤ l ∧ l < m.hi
    · rw [push_in hl, push_in hl, useAll_cons, ih]; rfl
    · rw [push_out hl, push_out hl, ih]

theorem protect_useAll (hg : ∀ r ∈ g, r.protect = false) : ∀ r ∈ useAll g, r.protect = false := by
  intro r hr
  obtain ⟨r', h1, rfl⟩ := List.mem_map.1 hr
  exact hg r' h1

/-! ## Variables -/

/-- The variable has a value in the model and in the specification, or in neither. -/
def Both (vars : Vars) (x : Client) (k : Nat) (P : Held → Val → Prop) : Prop :=
  k < vars.length ∧
    ((vars.get k = none ∧ x.get k = none) ∨ ∃ h v, vars.get k = some h ∧ x.get k = some v ∧ P h v)

section
variable {vars : Vars} {x : Client} {k : Nat} {P Q : Held → Val → Prop} {a : Option Held} {b : Option Val}

theorem get_append (h : k < vars.length) : Vars.get (vars ++ [a]) k = vars.get k := by
  unfold Vars.get; rw [List.getElem?_append_left h]

theorem get_last : Vars.get (vars ++ [a]) vars.length = a := by
  unfold Vars.get; rw [List.getElem?_append_right (Nat.le_refl _)]; simp

theorem Both.mono (h : Both vars x k P) (hq : ∀ h v, P h v → Q h v) : Both vars x k Q :=
  ⟨h.1, h.2.imp id fun ⟨h, v, h1, h2, h3⟩ => ⟨h, v, h1, h2, hq h v h3⟩⟩

theorem Both.text {cs : List Char} (h : Both vars x k P) : Both vars ⟨cs, x.vars⟩ k P := h

theorem Both.append (h : Both vars x k P) (hl : x.vars.length = vars.length) :
    Both (vars ++ [a]) ⟨x.text, x.vars ++ [b]⟩ k P := by
  have h1 : Vars.get (vars ++ [a]) k = vars.get k := get_append h.1
  have h2 : Client.get ⟨x.text, x.vars ++ [b]⟩ k = x.get k := by
    unfold Client.get; simp only; rw [List.getElem?_append_left (by rw [hl]; exact h.1)]
  exact ⟨by rw [List.length_append]; exact Nat.lt_of_lt_of_le h.1 (Nat.le_add_right _ _), by rw [h1, h2]; exact h.2⟩

theorem Both.last (hl : x.vars.length = vars.length)
    (h : (a = none ∧ b = none) ∨ ∃ h v, a = some h ∧ b = some v ∧ P h v) :
    Both (vars ++ [a]) ⟨x.text, x.vars ++ [b]⟩ vars.length P := by
  have h2 : Client.get ⟨x.text, x.vars ++ [b]⟩ vars.length = b := by
    unfold Client.get; simp only; rw [← hl, List.getElem?_append_right (Nat.le_refl _)]; simp
  exact ⟨by simp, by rw [get_last, h2]; exact h⟩

end

/-! ## The state between two statements -/

/-- The references that the program may use may be used, and show what they should. -/
structure Core (L : Laws R) (caller arg : Tag) (top : Nat) (hN : N < top) (g : List Ref) (T : Nat → List Tag)
    (c : Scope) (vars : Vars) (x : Client) (w : World R N) : Prop where
  holds : Holds w.str x.text
  count : vars.length = c.count
  count' : x.vars.length = c.count
  ghost : ∀ r ∈ g, r.protect = false
  bare : c.muts = [] → g = []
  inv : Inv L (bases (fun l => tagOf caller (chain g (c.muts.filterMap vars.get) l)) (argText R arg top hN))
    (props (Home L caller (chain g (c.muts.filterMap vars.get))) (argText R arg top hN)) top T
    (above N fun _ => []) w
  nested : (c.muts.filterMap vars.get).Pairwise fun a b => b.lo ≤ a.lo ∧ a.hi ≤ b.hi
  muts : ∀ k ∈ c.muts, Both vars x k fun h v => v = .mut h.lo h.hi ∧ SliceOk x.text (h.lo, h.hi)
  texts : ∀ k ∈ c.texts, Both vars x k fun h v => v = .text (h.bytes w.str) ∧ h.hi ≤ N ∧ Covers T h.tag h.lo h.hi
  strs : ∀ k ∈ c.strs, Both vars x k fun h v => v = .str ∧ Covers T h.tag 0 (N + 1)

section
variable {hN : N < top} {c : Scope} {vars : Vars} {x : Client}

theorem Core.state (h : Core L caller arg top hN g T c vars x w) :
    State L (Home L caller (chain g (c.muts.filterMap vars.get))) (argText R arg top hN) T (fun _ => []) w :=
  .of_inv h.inv

theorem Core.shape (h : Core L caller arg top hN g T c vars x w) : Shape w.str := ⟨h.holds.1, h.holds.2.1⟩

/-- Without shared references. -/
theorem core_of_state {muts : List Nat} {n : Nat} (hs : Holds w.str x.text) (h1 : vars.length = n)
    (h2 : x.vars.length = n) (hg : ∀ r ∈ g, r.protect = false) (hb : muts = [] → g = [])
    (hw : State L (Home L caller (chain g (muts.filterMap vars.get))) (argText R arg top hN) T (fun _ => []) w)
    (hn : (muts.filterMap vars.get).Pairwise fun a b => b.lo ≤ a.lo ∧ a.hi ≤ b.hi)
    (hm : ∀ k ∈ muts, Both vars x k fun h v => v = .mut h.lo h.hi ∧ SliceOk x.text (h.lo, h.hi)) :
    Core L caller arg top hN g (above N T) ⟨n, muts, [], []⟩ vars x w :=
  ⟨hs, h1, h2, hg, hb, hw.inv stable_home, hn, hm, nofun, nofun⟩

/-- The caller may use its reference. -/
theorem Core.ready (h : Core L caller arg top hN g T c vars x w) : Ready L caller arg top w :=
  State.ready (T := T) (hN := hN) (h.state.map fun _ _ _ => top_root h.ghost)

theorem core_of_ready {n : Nat} (h : Ready L caller arg top w) (hs : Holds w.str x.text)
    (h1 : vars.length = n) (h2 : x.vars.length = n) :
    Core L caller arg top hN [] (above N fun _ => []) ⟨n, [], [], []⟩ vars x w :=
  core_of_state (muts := []) hs h1 h2 nofun (fun _ => rfl) (h.state hN) .nil nofun

theorem Core.useMut (h : Core L caller arg top hN g T c vars x w) :
    Core L caller arg top hN [] (above N fun _ => []) c.useMut vars x w :=
  core_of_ready h.ready h.holds h.count h.count'

theorem Core.useShared (h : Core L caller arg top hN g T c vars x w) :
    ∃ T, Core L caller arg top hN [] T c.useShared vars x w ∧ c.useShared.muts = [] := by
  unfold Scope.useShared
  split
  next hm => exact ⟨T, (h.bare hm) ▸ h, hm⟩
  next => exact ⟨_, h.useMut, rfl⟩

theorem dropWhile_suffix {k : Nat} (l : List Nat) : ∃ l₁, l = l₁ ++ l.dropWhile (· ≠ k) :=
  ⟨l.takeWhile (· ≠ k), (List.takeWhile_append_dropWhile ..).symm⟩

theorem dropWhile_mem {k : Nat} : ∀ {l : List Nat}, k ∈ l → ∃ l', l.dropWhile (· ≠ k) = k :: l'
  | a :: l, h => by
    by_cases ha : a = k
    · subst ha; exact ⟨l, by simp [List.dropWhile]⟩
    · obtain ⟨l', h'⟩ := dropWhile_mem (l := l) ((List.mem_cons.1 h).resolve_left fun e => ha e.symm)
      exact ⟨l', by simpa [List.dropWhile, ha] using h'⟩

theorem Core.useMutOf {k : Nat} (h : Core L caller arg top hN g T c vars x w) (hk : k ∈ c.muts) :
    Core L caller arg top hN g (above N T) (c.useMutOf k) vars x w := by
  obtain ⟨l₁, hl⟩ := dropWhile_suffix (k := k) c.muts
  obtain ⟨l', hl'⟩ := dropWhile_mem hk
  have hf : c.muts.filterMap vars.get =
      l₁.filterMap vars.get ++ (c.muts.dropWhile (· ≠ k)).filterMap vars.get := by
    rw [← List.filterMap_append, ← hl]
  refine core_of_state h.holds h.count h.count' h.ghost (fun e => by rw [hl'] at e; cases e)
    (h.state.map fun _ _ _ hm => ?_) ?_ fun k' hk' => h.muts k' (by rw [hl]; exact List.mem_append_right _ hk')
  · unfold Home at hm
    rw [hf] at hm
    exact top_drop _ hm
  · have := h.nested
    rw [hf] at this
    exact (List.pairwise_append.1 this).2.1

theorem Core.useSharedOf {k : Nat} (h : Core L caller arg top hN g T c vars x w) (hk : k ∈ c.muts) :
    ∃ T l, Core L caller arg top hN g T (c.useSharedOf k) vars x w ∧ (c.useSharedOf k).muts = k :: l := by
  unfold Scope.useSharedOf
  split
  next he =>
    cases hm : c.muts with
    | nil => rw [hm] at he; cases he
    | cons a l =>
      rw [hm] at he
      cases he
      exact ⟨T, l, h, rfl⟩
  next =>
    obtain ⟨l', hl'⟩ := dropWhile_mem hk
    exact ⟨_, l', h.useMutOf hk, hl'⟩

/-- Run something that only reads. -/
theorem Core.run {m : M (World R N) ε α} {r : Res ε β} {Z : α → β → (Nat → List Tag) → Prop}
    (h : Core L caller arg top hN g T c vars x w)
    (hm : RunsR L (bases (fun l => tagOf caller (chain g (c.muts.filterMap vars.get) l)) (argText R arg top hN))
      (props (Home L caller (chain g (c.muts.filterMap vars.get))) (argText R arg top hN)) top w.str m T
      (above N fun _ => []) r Z) (hr : Settled r) :
    ∃ r' w' T', m w = (r', w') ∧ w'.str = w.str ∧ Match (fun a b => Z a b T') r' r ∧
      Core L caller arg top hN g T' c vars x w' := by
  obtain ⟨r', w', T', h1, h2, h3, h4⟩ := hm w rfl h.inv
  obtain ⟨h4, h5⟩ := h4 hr
  refine ⟨r', w', T', h1, h2, h3, by rw [h2]; exact h.holds, h.count, h.count', h.ghost, h.bare, h4, h.nested, h.muts,
    fun k hk => (h.texts k hk).mono fun _ _ q => ⟨by rw [h2]; exact q.1, q.2.1, q.2.2.grow h5⟩,
    fun k hk => (h.strs k hk).mono fun _ _ q => ⟨q.1, q.2.grow h5⟩⟩

theorem filterMap_append {l : List Nat} {a : Option Held} (h : ∀ k ∈ l, k < vars.length) :
    l.filterMap (Vars.get (vars ++ [a])) = l.filterMap vars.get := by
  induction l with
  | nil => rfl
  | cons k l ih =>
    rw [List.filterMap_cons, List.filterMap_cons, get_append (h k List.mem_cons_self),
      ih fun k hk => h k (List.mem_cons_of_mem _ hk)]

theorem Core.addText {a : Option Held} {b : Option Val} (h : Core L caller arg top hN g T c vars x w)
    (hv : (a = none ∧ b = none) ∨ ∃ h v, a = some h ∧ b = some v ∧
      v = .text (h.bytes w.str) ∧ h.hi ≤ N ∧ Covers T h.tag h.lo h.hi) :
    Core L caller arg top hN g T c.addText (vars ++ [a]) ⟨x.text, x.vars ++ [b]⟩ w := by
  have hl : x.vars.length = vars.length := h.count'.trans h.count.symm
  have hf : c.muts.filterMap (Vars.get (vars ++ [a])) = c.muts.filterMap vars.get :=
    filterMap_append fun k hk => (h.muts k hk).1
  refine ⟨h.holds, by simp [Scope.addText, h.count], by simp [Scope.addText, h.count'], h.ghost, h.bare,
    ?_, ?_, fun k hk => (h.muts k hk).append hl, fun k hk => ?_, fun k hk => (h.strs k hk).append hl⟩
  · show Inv L (bases (fun l => tagOf caller (chain g (c.muts.filterMap _) l)) _) _ _ _ _ _
    unfold Scope.addText
    simp only
    rw [hf]
    exact h.inv
  · show (c.muts.filterMap _).Pairwise _
    rw [hf]
    exact h.nested
  · rcases List.mem_cons.1 hk with rfl | hk
    · rw [← h.count]; exact .last hl hv
    · exact (h.texts k hk).append hl

theorem Core.addStr {a : Option Held} {b : Option Val} (h : Core L caller arg top hN g T c vars x w)
    (hv : (a = none ∧ b = none) ∨ ∃ h v, a = some h ∧ b = some v ∧ v = .str ∧ Covers T h.tag 0 (N + 1)) :
    Core L caller arg top hN g T c.addStr (vars ++ [a]) ⟨x.text, x.vars ++ [b]⟩ w := by
  have hl : x.vars.length = vars.length := h.count'.trans h.count.symm
  have hf : c.muts.filterMap (Vars.get (vars ++ [a])) = c.muts.filterMap vars.get :=
    filterMap_append fun k hk => (h.muts k hk).1
  refine ⟨h.holds, by simp [Scope.addStr, h.count], by simp [Scope.addStr, h.count'], h.ghost, h.bare,
    ?_, ?_, fun k hk => (h.muts k hk).append hl, fun k hk => (h.texts k hk).append hl, fun k hk => ?_⟩
  · show Inv L (bases (fun l => tagOf caller (chain g (c.muts.filterMap _) l)) _) _ _ _ _ _
    unfold Scope.addStr
    simp only
    rw [hf]
    exact h.inv
  · show (c.muts.filterMap _).Pairwise _
    rw [hf]
    exact h.nested
  · rcases List.mem_cons.1 hk with rfl | hk
    · rw [← h.count]; exact .last hl hv
    · exact (h.strs k hk).append hl

end

/-! ## Reading -/

section
variable {b : Nat → Tag} {B : Nat → R.St → Prop} {total : Nat} {s : ArrayString N} {P : Nat → List Tag}

theorem runsR_mapErr {ε' : Type} {m : M (World R N) ε α} {r : Res ε β} {f : ε → ε'}
    {Z : α → β → (Nat → List Tag) → Prop} (h : RunsR L b B total s m T P r Z) :
    RunsR L b B total s (M.mapErr f m) T P (r.mapErr f) Z := by
  intro w hs hi
  obtain ⟨r', w', T', h1, h2, h3, h4⟩ := h w hs hi
  refine ⟨r'.mapErr f, w', T', by simp only [M.mapErr, h1], h2, ?_, fun hr => h4 ?_⟩
  · cases h3 with
    | ok hq => exact .ok hq
    | err => exact .err
    | panic => exact .panic
    | ub => exact .ub
    | diverge => exact .diverge
  · cases r with
    | ub => exact absurd rfl hr.1
    | diverge => exact absurd rfl hr.2
    | ok _ => exact settled_ok
    | err _ => exact settled_err
    | panic => exact settled_panic

theorem runsR_call' [Verif.Kind ε] {m : M (World R N) ε α} {f : ArrayString N → Res ε α} {out : α → Out}
    (h : RunsR L b B total s m T P (f s) fun x y _ => x = y) :
    RunsR L b B total s (call m out) T P (Verif.query f out s).1 fun x y _ => x = y := by
  have e : (Verif.query f out s).1 = (f s).mapErr Verif.Kind.kind >>= fun a => .ok (out a) := by
    simp only [Verif.query, M.bind_apply, M.self_apply, M.lift_apply]
    cases f s <;> rfl
  rw [e]
  refine runsR_bind (runsR_mapErr h) ?_
  rintro a _ T' _ rfl
  exact runsR_of_runs (runs_pure (Q := fun x _ => x = out a) rfl) (fun _ _ h => h)

theorem runsR_query [Verif.Kind ε] {m : M (World R N) ε Unit} {f : ArrayString N → Res ε α} {out : α → Out}
    {Q : Unit → (Nat → List Tag) → Prop} (h : Runs L b B total s m T P Q) :
    RunsR L b B total s (query m f out) T P (Verif.query f out s).1 fun x y _ => x = y := by
  refine runsR_call' (runsR_left h fun _ _ _ _ => runsR_left runs_get fun _ _ _ e => ?_)
  subst e
  exact runsR_lift

/-- A call that takes `&self` through any reference that may be read through. -/
theorem runsR_exec {self : Tag} {op : Op} (hop : op.shared = true) (hself : Usable b T self 0 (N + 1))
    (harg : Usable b T arg (N + 1) total) (hN : N < total) (hs : Shape s)
    (ht : ∀ t ∈ texts op, N + 1 + (utf8 t).length ≤ total) :
    RunsR L b B total s (exec self arg op) T P (Verif.exec op s).1 (fun x y _ => x = y) ∧
      (Verif.exec op s).2 = s := by
  have hq : ∀ {ε γ : Type} [Verif.Kind ε] {f : ArrayString N → Res ε γ} {out : γ → Out},
      (Verif.query f out s).2 = s := by
    intro ε γ _ f out
    simp only [Verif.query, M.bind_apply, M.self_apply, M.lift_apply]
    cases f s <;> rfl
  cases op <;> first | (cases hop; done) | skip
  case index i => exact ⟨runsR_call' (runsR_index hself hN hs), hq⟩
  case asStr => exact ⟨runsR_query (runs_discard (runs_look hself hN hs.2)), hq⟩
  case asBytes =>
    refine ⟨runsR_query (Q := fun _ _ => True) (runs_bind (runs_asRefBytes hself hN hs.2) ?_), hq⟩
    rintro ⟨a, n⟩ T1 k1 ⟨rfl, c1⟩
    have := hs.2
    exact runs_read c1.usable (by omega)
  case display => exact ⟨runsR_query (runs_reading hself hN hs), hq⟩
  case len => exact ⟨runsR_query (runs_discard (runs_len hself hN)), hq⟩
  case isEmpty => exact ⟨runsR_query (runs_discard (runs_asRefStr hself hN hs.2)), hq⟩
  case capacity => exact ⟨runsR_query (runs_pure (Q := fun _ _ => True) trivial), hq⟩
  case eqStr t =>
    have ht := ht t (by simp [texts])
    refine ⟨runsR_query (Q := fun _ _ => True) (runs_pass (fun l h1 h2 => harg l h1 (by omega)) ht
      fun u T1 P1 k1 c1 => ?_), hq⟩
    exact runs_bind (runs_reading (hself.grow k1) hN hs) fun _ T2 k2 _ => runs_read (c1.grow k2).usable ht
  case hash => exact ⟨runsR_query (runs_reading hself hN hs), hq⟩

theorem runsR_takeText {self : Tag} (hself : Usable b T self 0 (N + 1)) (hN : N < total) (hs : Shape s) :
    RunsR L b B total s (takeText self : M _ ε _) T P (s.asStr : Res ε Bytes) fun h y T' =>
      h.bytes s = y ∧ h.hi ≤ N ∧ Covers T' h.tag h.lo h.hi := by
  have e : (s.asStr >>= Res.ok : Res ε Bytes) = s.asStr := by cases (s.asStr : Res ε Bytes) <;> rfl
  rw [← e]
  refine runsR_left (runs_asStr hself hN hs.2) ?_
  rintro ⟨a, n⟩ T1 k1 ⟨rfl, c1⟩
  refine runsR_left runs_get fun s' T2 k2 e => ?_
  subst e
  refine runsR_lift_bind fun y hy => ?_
  exact runsR_of_runs (runs_pure (Q := fun h T' => h = ⟨a, 0, s'.len⟩ ∧ Covers T' a 0 s'.len) ⟨rfl, c1.grow k2⟩) (by
    rintro _ T3 ⟨rfl, c3⟩
    exact ⟨(asStr_take hy).symm, hs.2, c3⟩)

theorem runsR_takeBytes {self : Tag} (hself : Usable b T self 0 (N + 1)) (hN : N < total) (hs : Shape s) :
    RunsR L b B total s (takeBytes self : M _ ε _) T P (s.asRefBytes : Res ε Bytes) fun h y T' =>
      h.bytes s = y ∧ h.hi ≤ N ∧ Covers T' h.tag h.lo h.hi := by
  have e : (s.asRefBytes >>= Res.ok : Res ε Bytes) = s.asRefBytes := by
    cases (s.asRefBytes : Res ε Bytes) <;> rfl
  rw [← e]
  refine runsR_left (runs_asRefBytes hself hN hs.2) ?_
  rintro ⟨a, n⟩ T1 k1 ⟨rfl, c1⟩
  refine runsR_left runs_get fun s' T2 k2 e => ?_
  subst e
  refine runsR_lift_bind fun y hy => ?_
  have h2 : s'.len ≤ s'.array.length := by rw [hs.1]; exact hs.2
  have h1 : s'.len ≤ N := hs.2
  have hy : s'.array.take s'.len = y := by
    simpa [ArrayString.asRefBytes, debugAssert, getUncheckedTo, h1, h2] using hy
  exact runsR_of_runs (runs_pure (Q := fun h T' => h = ⟨a, 0, s'.len⟩ ∧ Covers T' a 0 s'.len) ⟨rfl, c1.grow k2⟩) (by
    rintro _ T3 ⟨rfl, c3⟩
    exact ⟨hy, hs.2, c3⟩)

theorem runsR_takeSlice {self : Tag} {i : IdxU8} (hself : Usable b T self 0 (N + 1)) (hN : N < total) (hs : Shape s) :
    RunsR L b B total s (takeSlice self i : M _ ε _) T P (s.index i : Res ε Bytes) fun h y T' =>
      h.bytes s = y ∧ h.hi ≤ N ∧ Covers T' h.tag h.lo h.hi := by
  have e : (s.index i >>= Res.ok : Res ε Bytes) = s.index i := by cases (s.index i : Res ε Bytes) <;> rfl
  rw [← e]
  refine runsR_bind (runsR_indexRef hself hN hs) ?_
  rintro ⟨a, x, y, t⟩ _ T1 k1 ⟨rfl, hy, c1, _, hi⟩
  simp only at hy c1 hi ⊢
  have hl := (index_ok hi).2
  have hb : (s.array.take y).drop x = t := by
    unfold Str.index Str.get? at hi
    split at hi
    next hc =>
      split at hc
      · cases hc; cases hi
        rw [List.length_take] at hl
        rw [← List.drop_take, List.take_take, Nat.min_eq_left (by omega)]
      · cases hc
    next => cases hi
  exact runsR_of_runs (runs_pure (Q := fun h T' => h = ⟨a, x, y⟩ ∧ Covers T' a x y) ⟨rfl, c1⟩) (by
    rintro _ T3 ⟨rfl, c3⟩
    exact ⟨hb, hy, c3⟩)

end

/-! ## Parts of a `&mut str` -/

section
variable {A : Text R N} {P : Nat → List Tag} {c : Nat → List Ref} {t : Tag} {lo hi lo' hi' : Nat}

/-- Retag a reference that there is something below. -/
theorem State.againHome (h : State L (Home L root (push ⟨t, .new, false⟩ lo hi c)) A T P w) (hhi : hi ≤ N + 1)
    (hc : ∀ l, lo ≤ l → l < hi → ∃ r c', c l = r :: c') :
    ∃ v w', (retagUnique t lo hi false : M (World R N) ε Tag) w = (.ok v, w') ∧ w'.str = w.str ∧
      State L (Home L root (push ⟨v, .new, false⟩ lo hi c)) A T P w' := by
  obtain ⟨w1, e1, s1, g1⟩ := h.uniqueHome (ε := ε) (p := false) hhi
    (fun l h1 h2 => ⟨⟨t, .new, false⟩, c l, push_in ⟨h1, h2⟩, rfl⟩)
  refine ⟨w.next, w1, e1, s1, g1.map fun l st _ hm => ?_⟩
  unfold Home at hm ⊢
  by_cases hl : lo ≤ l ∧ l < hi
  · obtain ⟨r, c', e⟩ := hc l hl.1 hl.2
    rw [push_in hl, push_in hl, e] at hm
    rw [push_in hl, e]
    exact L.main_hide hm (by simp)
  · rw [push_out hl, push_out hl] at hm
    rw [push_out hl]
    exact hm

/-- `State.throughRaw` for the newest of any chain, which is kept. -/
theorem State.partRaw (h : State L (Home L root c) A T P w) (h1 : lo ≤ lo') (h2 : hi' ≤ hi) (h3 : hi ≤ N + 1)
    (hc : ∀ l, lo ≤ l → l < hi → ∃ r c', c l = r :: c' ∧ r.tag = t) :
    ∃ v w', (Borrow.throughRaw t lo hi lo' hi' : M (World R N) ε Tag) w = (.ok v, w') ∧ w'.str = w.str ∧
      State L (Home L root (push ⟨v, .new, false⟩ lo' hi' c)) A T P w' := by
  have sub : ∀ {l}, lo' ≤ l ∧ l < hi' → lo ≤ l ∧ l < hi := fun h => ⟨by omega, by omega⟩
  obtain ⟨w1, e1, s1, g1⟩ := h.uniqueHome (ε := ε) (p := true) h3 hc
  -- the cast to a raw pointer
  obtain ⟨mem2, e2, g2⟩ := touch_run (ε := ε) (w := { w1 with next := w1.next + 1 }) (lo := lo)
    (hi := hi) (f := R.rawMut w.next w1.next)
    (Q := fun l st => (lo ≤ l ∧ l < hi → L.Below (w1.next + 1) st ∧
      (∃ st₂, R.release w.next st = some st₂ ∧ Top L root (c l) st₂ ∧ L.Below (w1.next + 1) st₂) ∧
      ∃ st₂ st₃, R.unique (R.rawTag w.next w1.next) (w1.next + 1) false st = some st₂ ∧
        L.Below (w1.next + 2) st₂ ∧ R.release w.next st₂ = some st₃ ∧
        Top L root (⟨w1.next + 1, .new, false⟩ :: c l) st₃ ∧
        L.Below (w1.next + 2) st₃) ∧ (¬ (lo ≤ l ∧ l < hi) → st = w1.mem l))
    (fun l k1 k2 => by
      obtain ⟨hm, hb⟩ := g1.1 l (by omega)
      obtain ⟨r, c', e, _⟩ := hc l k1 k2
      unfold Home at hm
      rw [push_in ⟨k1, k2⟩, e] at hm
      obtain ⟨st', q1, q2⟩ := L.main_raw_unique hm hb
      exact ⟨st', q1, fun _ => by rw [e]; exact q2, fun hl' => absurd ⟨k1, k2⟩ hl'⟩)
    (fun l hl => ⟨fun hl' => absurd hl' hl, fun _ => rfl⟩)
  -- the new reference
  obtain ⟨mem3, e3, g3⟩ := touch_run (ε := ε)
    (w := { str := w1.str, mem := mem2, next := w1.next + 1 + 1 }) (lo := lo') (hi := hi')
    (f := R.unique (R.rawTag w.next w1.next) (w1.next + 1) false)
    (Q := fun l st => (lo ≤ l ∧ l < hi → ∃ st', R.release w.next st = some st' ∧
        Home L root (push ⟨w1.next + 1, .new, false⟩ lo' hi' c) l st' ∧
        L.Below (w1.next + 2) st') ∧ (¬ (lo ≤ l ∧ l < hi) → st = w1.mem l))
    (fun l k1 k2 => by
      have hs := sub ⟨k1, k2⟩
      obtain ⟨_, _, st2, st3, q1, q2, q3, q4, q5⟩ := (g2 l).1 hs
      refine ⟨st2, q1, fun _ => ⟨st3, q3, ?_, q5⟩, fun h => absurd hs h⟩
      unfold Home
      rw [push_in ⟨k1, k2⟩]
      exact q4)
    (fun l hl => ⟨fun hn => by
      obtain ⟨_, ⟨st2, q1, q2, q3⟩, _⟩ := (g2 l).1 hn
      refine ⟨st2, q1, ?_, L.below_mono q3 (Nat.le_succ _)⟩
      unfold Home
      rw [push_out hl]
      exact q2, (g2 l).2⟩)
  -- the return
  obtain ⟨mem4, e4, g4⟩ := touch_run (ε := ε)
    (w := { str := w1.str, mem := mem3, next := w1.next + 1 + 1 }) (lo := lo) (hi := hi)
    (f := R.release w.next)
    (Q := fun l st => (lo ≤ l ∧ l < hi → Home L root (push ⟨w1.next + 1, .new, false⟩ lo' hi' c) l st ∧
        L.Below (w1.next + 2) st) ∧ (¬ (lo ≤ l ∧ l < hi) → st = w1.mem l))
    (fun l k1 k2 => by
      obtain ⟨st', q1, q2⟩ := (g3 l).1 ⟨k1, k2⟩
      exact ⟨st', q1, fun _ => q2, fun hl' => absurd ⟨k1, k2⟩ hl'⟩)
    (fun l hl => ⟨fun hl' => absurd hl' hl, (g3 l).2⟩)
  have g5 : State L (Home L root (push ⟨w1.next + 1, .new, false⟩ lo' hi' c)) A T P
      { str := w1.str, mem := mem4, next := w1.next + 1 + 1 } := by
    refine ⟨fun l hl => ?_, fun l hl hl' => ?_⟩
    · by_cases hn : lo ≤ l ∧ l < hi
      · exact (g4 l).1 hn
      · obtain ⟨hm, hb⟩ := g1.1 l hl
        simp only [(g4 l).2 hn]
        unfold Home at hm ⊢
        rw [push_out hn] at hm
        refine ⟨?_, L.below_mono hb (Nat.le_add_right _ 2)⟩
        rw [push_out fun h => hn (sub h)]
        exact hm
    · simp only [(g4 l).2 (show ¬ (lo ≤ l ∧ l < hi) by omega)]
      exact ⟨(g1.2 l hl hl').1, L.below_mono (g1.2 l hl hl').2 (Nat.le_add_right _ 2)⟩
  obtain ⟨v, w6, e6, s6, g6⟩ := g5.againHome (ε := ε) (by omega) (fun l k1 k2 => by
    obtain ⟨r, c', e, _⟩ := hc l (by omega) (by omega)
    exact ⟨r, c', e⟩)
  refine ⟨v, w6, ?_, s6.trans s1, g6⟩
  unfold retagUnique at e6 e1
  unfold Borrow.throughRaw retagUnique
  rw [bind_ok e1, bind_ok (m := Borrow.fresh) (w := w1) (a := w1.next) (w' := { w1 with next := w1.next + 1 }) rfl,
    bind_ok e2]
  have : (do
      let u ← Borrow.fresh
      Borrow.touch lo' hi' (R.unique (R.rawTag w.next w1.next) u false)
      pure u : M (World R N) ε Tag) { str := w1.str, mem := mem2, next := w1.next + 1 } =
      (.ok (w1.next + 1), { str := w1.str, mem := mem3, next := w1.next + 1 + 1 }) := by
    rw [bind_ok (m := Borrow.fresh) (a := w1.next + 1) (w' := { str := w1.str, mem := mem2, next := w1.next + 1 + 1 }) rfl,
      bind_ok e3]
    rfl
  rw [bind_ok this, release, bind_ok e4, e6]

/-- One more of the references of the program. -/
theorem State.chained {h : Held} (hw : State L (Home L root (push ⟨h.tag, .new, false⟩ h.lo h.hi (chain g ms))) A T P w) :
    State L (Home L root (chain (useAll g) (h :: ms))) A T P w :=
  hw.map fun l st _ hm => by
    have := Top.use hm
    unfold Home
    rw [chain]
    by_cases hl : h.lo ≤ l ∧ l < h.hi
    · rw [push_in hl, useAll_cons, useAll_chain] at this; rw [push_in hl]; exact this
    · rw [push_out hl, useAll_chain] at this; rw [push_out hl]; exact this

end

end Verif.Borrow
