import Verif.Proofs.Core
import Verif.Proofs.Borrow
import Verif.Model.BorrowCalls

/-!
# Following the functions through the aliasing rules

For any rules with the laws of `Proofs/Borrow.lean`.
-/

namespace Verif.Borrow

variable {R : Rules} (L : Laws R) {N : Nat} {ε ε' α β : Type}

/-! ## Running -/

theorem bind_ok {σ : Type} {m : M σ ε α} {f : α → M σ ε β} {w w' a}
    (h : m w = (.ok a, w')) : (m >>= f) w = f a w' := by
  show M.bind m f w = _
  simp [M.bind, h]

theorem bind_lift {σ ε α β : Type} {r : Res ε α} {f : α → M σ ε β} {w : σ} {a : α} (h : r = .ok a) :
    (M.lift r >>= f) w = f a w := by
  subst h; rfl

theorem bind_err {σ : Type} {m : M σ ε α} {f : α → M σ ε β} {w w' e}
    (h : m w = (.err e, w')) : (m >>= f) w = (.err e, w') := by
  show M.bind m f w = _
  simp [M.bind, h]

/-- The function returned or panicked. -/
def Settled (r : Res ε α) : Prop := r ≠ .ub ∧ r ≠ .diverge

theorem settled_ok {a : α} : Settled (.ok a : Res ε α) := ⟨nofun, nofun⟩
theorem settled_err {e : ε} : Settled (.err e : Res ε α) := ⟨nofun, nofun⟩
theorem settled_panic : Settled (.panic : Res ε α) := ⟨nofun, nofun⟩

theorem protecting_run {t : Tag} {lo hi : Nat} {body : M (World R N) ε α} {w w1 w2 : World R N}
    {r : Res ε α} (h : body w = (r, w1)) (hr : Settled r)
    (hw : (release t lo hi : M (World R N) Empty Unit) w1 = (.ok (), w2)) :
    protecting t lo hi body w = (r, w2) := by
  unfold protecting
  rw [h]
  cases r with
  | ub => exact absurd rfl hr.1
  | diverge => exact absurd rfl hr.2
  | ok => simp only [hw]
  | err => simp only [hw]
  | panic => simp only [hw]

theorem protecting_fail {t : Tag} {lo hi : Nat} {body : M (World R N) ε α} {w w1 : World R N}
    {r : Res ε α} (h : body w = (r, w1)) (hr : ¬ Settled r) : protecting t lo hi body w = (r, w1) := by
  unfold protecting
  rw [h]
  cases r with
  | ub => rfl
  | diverge => rfl
  | ok => exact absurd settled_ok hr
  | err => exact absurd settled_err hr
  | panic => exact absurd settled_panic hr

theorem touch_run {lo hi : Nat} {f : R.St → Option R.St} {w : World R N} {Q : Nat → R.St → Prop}
    (h : ∀ l, lo ≤ l → l < hi → ∃ st', f (w.mem l) = some st' ∧ Q l st')
    (h' : ∀ l, ¬ (lo ≤ l ∧ l < hi) → Q l (w.mem l)) :
    ∃ mem', touch lo hi f w = ((.ok () : Res ε Unit), { w with mem := mem' }) ∧ ∀ l, Q l (mem' l) := by
  refine ⟨fun l =>
    let st := w.mem l
    if lo ≤ l ∧ l < hi then (f st).getD st else st, ?_, ?_⟩
  · unfold touch
    rw [if_pos]
    rw [List.all_eq_true]
    intro l hl
    rw [List.mem_range'_1] at hl
    obtain ⟨st', hst, _⟩ := h l hl.1 (by omega)
    simp [hst]
  · intro l
    simp only
    split
    · next hl =>
      obtain ⟨st', hst, hq⟩ := h l hl.1 hl.2
      rw [hst]; exact hq
    · next hl => exact h' l hl

/-! ## Functions that only read -/

/-- Where the shared references made so far may be used, on top of `B`. -/
def Inv (b : Nat → Tag) (B : Nat → R.St → Prop) (total : Nat) (T P : Nat → List Tag)
    (w : World R N) : Prop :=
  ∀ l, l < total → L.Side (b l) (B l) (T l) (P l) (w.mem l) ∧ L.Below w.next (w.mem l)

/-- The tag may be read through on `lo .. hi`. -/
def Usable (b : Nat → Tag) (T : Nat → List Tag) (t : Tag) (lo hi : Nat) : Prop :=
  ∀ l, lo ≤ l → l < hi → t = b l ∨ t ∈ T l

/-- The shared reference covers `lo .. hi`. -/
def Covers (T : Nat → List Tag) (t : Tag) (lo hi : Nat) : Prop := ∀ l, lo ≤ l → l < hi → t ∈ T l

def Grows (T T' : Nat → List Tag) : Prop := ∀ l, T l ⊆ T' l

theorem Grows.refl {T} : Grows T T := fun _ _ h => h
theorem Grows.trans {T T' T''} (h : Grows T T') (h' : Grows T' T'') : Grows T T'' :=
  fun l _ hx => h' l (h l hx)

theorem Usable.grow {b T T' t lo hi} (h : Usable b T t lo hi) (hg : Grows T T') :
    Usable b T' t lo hi :=
  fun l h1 h2 => (h l h1 h2).imp id (fun h => hg l h)

theorem Covers.grow {T T' t lo hi} (h : Covers T t lo hi) (hg : Grows T T') : Covers T' t lo hi :=
  fun l h1 h2 => hg l (h l h1 h2)

theorem Covers.usable {b T t lo hi} (h : Covers T t lo hi) : Usable b T t lo hi :=
  fun l h1 h2 => .inr (h l h1 h2)

theorem Covers.sub {T t lo hi lo' hi'} (h : Covers T t lo hi) (h1 : lo ≤ lo') (h2 : hi' ≤ hi) :
    Covers T t lo' hi' :=
  fun l h3 h4 => h l (by omega) (by omega)

/-- The computation succeeds, leaves the string alone, and leaves all shared references usable. -/
def Runs (b : Nat → Tag) (B : Nat → R.St → Prop) (total : Nat) (s : ArrayString N)
    (m : M (World R N) ε α) (T P : Nat → List Tag) (Q : α → (Nat → List Tag) → Prop) : Prop :=
  ∀ w, w.str = s → Inv L b B total T P w →
    ∃ a w' T', m w = (.ok a, w') ∧ w'.str = s ∧ Inv L b B total T' P w' ∧ Grows T T' ∧ Q a T'

section
variable {L}
variable {b : Nat → Tag} {B : Nat → R.St → Prop} {total : Nat} {s : ArrayString N}
  {T P : Nat → List Tag}

theorem runs_pure {a : α} {Q : α → (Nat → List Tag) → Prop} (h : Q a T) :
    Runs L b B total s (pure a : M (World R N) ε α) T P Q :=
  fun w hs hi => ⟨a, w, T, rfl, hs, hi, .refl, h⟩

theorem runs_bind {m : M (World R N) ε α} {f : α → M (World R N) ε β}
    {Q : α → (Nat → List Tag) → Prop} {Q' : β → (Nat → List Tag) → Prop}
    (h : Runs L b B total s m T P Q)
    (h' : ∀ a T', Grows T T' → Q a T' → Runs L b B total s (f a) T' P Q') :
    Runs L b B total s (m >>= f) T P Q' := by
  intro w hs hi
  obtain ⟨a, w', T', h1, h2, h3, h4, h5⟩ := h w hs hi
  obtain ⟨a', w'', T'', g1, g2, g3, g4, g5⟩ := h' a T' h4 h5 w' h2 h3
  exact ⟨a', w'', T'', by rw [bind_ok h1, g1], g2, g3, h4.trans g4, g5⟩

theorem runs_weaken {m : M (World R N) ε α} {Q Q' : α → (Nat → List Tag) → Prop}
    (h : Runs L b B total s m T P Q) (h' : ∀ a T', Grows T T' → Q a T' → Q' a T') :
    Runs L b B total s m T P Q' := by
  intro w hs hi
  obtain ⟨a, w', T', h1, h2, h3, h4, h5⟩ := h w hs hi
  exact ⟨a, w', T', h1, h2, h3, h4, h' a T' h4 h5⟩

theorem runs_get : Runs L b B total s (get : M (World R N) ε (ArrayString N)) T P (fun a _ => a = s) :=
  fun w hs hi => ⟨w.str, w, T, rfl, hs, hi, .refl, hs⟩

theorem runs_read {t : Tag} {lo hi : Nat} (ht : Usable b T t lo hi) (hh : hi ≤ total) :
    Runs L b B total s (readAt t lo hi : M (World R N) ε Unit) T P (fun _ _ => True) := by
  intro w hs hi'
  obtain ⟨mem', h1, h2⟩ := touch_run (ε := ε) (w := w) (lo := lo) (hi := hi) (f := R.read t)
    (Q := fun l st => l < total → L.Side (b l) (B l) (T l) (P l) st ∧ L.Below w.next st)
    (fun l h1 h2 => by
      obtain ⟨st', g1, g2, g3⟩ := L.side_read (hi' l (by omega)).1 (hi' l (by omega)).2 (ht l h1 h2)
      exact ⟨st', g1, fun _ => ⟨g2, g3⟩⟩)
    (fun l _ hl => hi' l hl)
  exact ⟨(), { w with mem := mem' }, T, h1, hs, h2, .refl, trivial⟩

/-- Add a tag on `lo .. hi`. -/
def ins (u : Tag) (lo hi : Nat) (T : Nat → List Tag) : Nat → List Tag :=
  fun l => if lo ≤ l ∧ l < hi then u :: T l else T l

theorem ins_grows {u lo hi} : Grows T (ins u lo hi T) := by
  intro l x hx
  unfold ins
  split
  · exact List.mem_cons_of_mem _ hx
  · exact hx

theorem ins_covers {u lo hi} : Covers (ins u lo hi T) u lo hi := by
  intro l h1 h2
  simp [ins, h1, h2]

theorem shared_run {t : Tag} {lo hi : Nat} {p : Bool} {w : World R N}
    (hi' : Inv L b B total T P w) (ht : Usable b T t lo hi) (hh : hi ≤ total) :
    ∃ u w', (retagShared t lo hi p : M (World R N) ε Tag) w = (.ok u, w') ∧ w'.str = w.str ∧
      Inv L b B total (ins u lo hi T) (if p then ins u lo hi P else P) w' := by
  obtain ⟨mem', h1, h2⟩ := touch_run (ε := ε) (w := { w with next := w.next + 1 }) (lo := lo)
    (hi := hi) (f := R.shared t w.next p)
    (Q := fun l st => l < total →
      L.Side (b l) (B l) (ins w.next lo hi T l) ((if p then ins w.next lo hi P else P) l) st ∧
        L.Below (w.next + 1) st)
    (fun l h1 h2 => by
      obtain ⟨st', g1, g2, g3⟩ := L.side_shared p (hi' l (by omega)).1 (hi' l (by omega)).2 (ht l h1 h2)
      refine ⟨st', g1, fun _ => ⟨?_, g3⟩⟩
      simp only [ins, h1, h2, and_self, if_true]
      cases p
      · exact g2
      · simpa [ins, h1, h2] using g2)
    (fun l hl hl' => by
      obtain ⟨g1, g2⟩ := hi' l hl'
      refine ⟨?_, L.below_mono g2 (Nat.le_succ _)⟩
      simp only [ins, if_neg hl]
      cases p
      · exact g1
      · simpa [ins, if_neg hl] using g1)
  refine ⟨w.next, { str := w.str, mem := mem', next := w.next + 1 }, ?_, ?_, h2⟩
  · unfold retagShared
    rw [bind_ok (m := fresh) (w := w) (a := w.next) (w' := { w with next := w.next + 1 }) rfl,
      bind_ok h1]
    rfl
  · rfl

theorem runs_shared {t : Tag} {lo hi : Nat} (ht : Usable b T t lo hi) (hh : hi ≤ total) :
    Runs L b B total s (retagShared t lo hi false : M (World R N) ε Tag) T P
      (fun u T' => Covers T' u lo hi) := by
  intro w hs hi'
  obtain ⟨u, w', h1, h2, h3⟩ := shared_run (ε := ε) (p := false) hi' ht hh
  exact ⟨u, w', _, h1, h2.trans hs, h3, ins_grows, ins_covers⟩

theorem Inv.release {u : Tag} {lo hi : Nat} {w : World R N} (h : Inv L b B total T (ins u lo hi P) w)
    (hh : hi ≤ total) (hu : Covers T u lo hi) :
    ∃ w', (Borrow.release u lo hi : M (World R N) ε Unit) w = (.ok (), w') ∧ w'.str = w.str ∧
      Inv L b B total T P w' := by
  obtain ⟨mem', k1, k2⟩ := touch_run (ε := ε) (w := w) (lo := lo) (hi := hi) (f := R.release u)
    (Q := fun l st => l < total → L.Side (b l) (B l) (T l) (P l) st ∧ L.Below w.next st)
    (fun l e1 e2 => by
      obtain ⟨c1, c2⟩ := h l (by omega)
      obtain ⟨st', d1, d2, d3⟩ := L.side_release c1 c2 (hu l e1 e2)
      refine ⟨st', d1, fun _ => ⟨L.side_mono d2 (fun _ h => h) ?_, d3⟩⟩
      intro x hx
      simp only [ins, e1, e2, and_self, if_true, List.mem_filter, List.mem_cons, ne_eq,
        decide_eq_true_eq] at hx
      exact hx.1.resolve_left hx.2)
    (fun l e1 e2 => by
      obtain ⟨c1, c2⟩ := h l e2
      simp only [ins, if_neg e1] at c1
      exact ⟨c1, c2⟩)
  exact ⟨{ w with mem := mem' }, k1, rfl, k2⟩

theorem runs_pass {t : Tag} {lo hi : Nat} {body : Tag → M (World R N) ε α}
    {Q : α → (Nat → List Tag) → Prop} (ht : Usable b T t lo hi) (hh : hi ≤ total)
    (hb : ∀ u T' P', Grows T T' → Covers T' u lo hi → Runs L b B total s (body u) T' P' Q) :
    Runs L b B total s (passShared t lo hi body) T P Q := by
  intro w hs hi'
  obtain ⟨u, w1, h1, h2, h3⟩ := shared_run (ε := ε) (p := true) hi' ht hh
  obtain ⟨a, w2, T2, g1, g2, g3, g4, g5⟩ := hb u _ _ ins_grows ins_covers w1 (h2.trans hs) h3
  obtain ⟨w3, k1, k2, k3⟩ := Inv.release (ε := Empty) g3 hh (ins_covers.grow g4)
  refine ⟨a, w3, T2, ?_, k2.trans g2, k3, ins_grows.trans g4, g5⟩
  unfold passShared
  rw [bind_ok h1, protecting_run g1 settled_ok k1]

theorem runs_through {t : Tag} {lo hi lo' hi' : Nat} (ht : Usable b T t lo hi) (hh : hi ≤ total)
    (h1 : lo ≤ lo') (h2 : hi' ≤ hi) :
    Runs L b B total s (through t lo hi lo' hi' : M (World R N) ε Tag) T P
      (fun u T' => Covers T' u lo' hi') :=
  runs_bind (runs_pass ht hh fun _ _ _ _ hc => runs_shared (hc.sub h1 h2).usable (by omega))
    fun _ _ _ hc => runs_shared hc.usable (by omega)

theorem runs_call {self : Tag} {body : Tag → M (World R N) ε α} {Q : α → (Nat → List Tag) → Prop}
    (hself : Usable b T self 0 (N + 1)) (hh : N + 1 ≤ total)
    (hb : ∀ u T' P', Grows T T' → Covers T' u 0 (N + 1) → Runs L b B total s (body u) T' P' Q) :
    Runs L b B total s (callShared self body) T P Q :=
  runs_bind (runs_shared hself hh) fun _ _ hg hc =>
    runs_pass hc.usable hh fun u T' P' hg' hc' => hb u T' P' (hg.trans hg') hc'

theorem runs_callRef {self : Tag} {body : Tag → M (World R N) ε (Tag × Nat)} {n : Nat}
    (hself : Usable b T self 0 (N + 1)) (hh : N + 1 ≤ total) (hn : n ≤ N)
    (hb : ∀ u T' P', Grows T T' → Covers T' u 0 (N + 1) →
      Runs L b B total s (body u) T' P' fun r T' => r.2 = n ∧ Covers T' r.1 0 n) :
    Runs L b B total s (callRef self body) T P fun r T' => r.2 = n ∧ Covers T' r.1 0 n :=
  runs_bind (runs_call hself hh hb) fun r _ _ hc => by
    obtain ⟨a, k⟩ := r
    obtain ⟨rfl, hc⟩ := hc
    exact runs_bind (runs_shared hc.usable (by omega)) fun _ _ _ hc => runs_pure ⟨rfl, hc⟩

theorem runs_len {self : Tag} (hself : Usable b T self 0 (N + 1)) (hh : N + 1 ≤ total) :
    Runs L b B total s (len self : M (World R N) ε Nat) T P (fun n _ => n = s.len) :=
  runs_call hself hh fun u T' P' hg hc =>
    runs_bind (runs_read (hc.sub (by omega) (by omega)).usable (by omega)) fun _ _ _ _ =>
      runs_bind runs_get fun a _ _ ha => runs_pure (by rw [ha])

theorem runs_asRefBytes {self : Tag} (hself : Usable b T self 0 (N + 1)) (hh : N + 1 ≤ total)
    (hs : s.len ≤ N) :
    Runs L b B total s (asRefBytes self : M (World R N) ε (Tag × Nat)) T P
      (fun r T' => r.2 = s.len ∧ Covers T' r.1 0 s.len) :=
  runs_callRef hself hh hs fun u T' P' hg hc =>
    runs_bind (runs_len hc.usable hh) fun _ _ g1 _ =>
    runs_bind (runs_shared ((hc.grow g1).sub (by omega) (by omega)).usable (by omega)) fun _ _ g2 c2 =>
    runs_bind (runs_through c2.usable (by omega) (by omega) (by omega)) fun _ _ g3 c3 =>
    runs_bind (runs_len ((hc.grow g1).grow (g2.trans g3)).usable hh) fun n _ g4 e4 => by
      subst e4
      exact runs_bind (runs_through (c3.grow g4).usable (by omega) (by omega) (by omega))
        fun _ _ _ c5 => runs_pure ⟨rfl, c5⟩

theorem runs_asRefStr {self : Tag} (hself : Usable b T self 0 (N + 1)) (hh : N + 1 ≤ total)
    (hs : s.len ≤ N) :
    Runs L b B total s (asRefStr self : M (World R N) ε (Tag × Nat)) T P
      (fun r T' => r.2 = s.len ∧ Covers T' r.1 0 s.len) :=
  runs_callRef hself hh hs fun u T' P' hg hc =>
    runs_bind (runs_asRefBytes hc.usable hh hs) fun r _ g1 c1 => by
      obtain ⟨a, n⟩ := r
      obtain ⟨rfl, c1⟩ := c1
      exact runs_bind (runs_read c1.usable (by omega)) fun _ _ g2 _ =>
        runs_bind (runs_asRefBytes (hc.grow (g1.trans g2)).usable hh hs) fun r _ g3 c3 => by
          obtain ⟨a, n⟩ := r
          obtain ⟨rfl, c3⟩ := c3
          exact runs_bind (runs_through c3.usable (by omega) (by omega) (by omega))
            fun _ _ _ c4 => runs_pure ⟨rfl, c4⟩

theorem runs_asStr {self : Tag} (hself : Usable b T self 0 (N + 1)) (hh : N + 1 ≤ total)
    (hs : s.len ≤ N) :
    Runs L b B total s (asStr self : M (World R N) ε (Tag × Nat)) T P
      (fun r T' => r.2 = s.len ∧ Covers T' r.1 0 s.len) :=
  runs_callRef hself hh hs fun _ _ _ _ hc => runs_asRefStr hc.usable hh hs

theorem runs_look {self : Tag} (hself : Usable b T self 0 (N + 1)) (hh : N + 1 ≤ total)
    (hs : s.len ≤ N) :
    Runs L b B total s (look self : M (World R N) ε Nat) T P (fun n _ => n = s.len) := by
  unfold look
  exact runs_bind (runs_asStr hself hh hs) fun r _ _ hc => by
    obtain ⟨a, n⟩ := r
    obtain ⟨rfl, hc⟩ := hc
    exact runs_bind (runs_read hc.usable (by omega)) fun _ _ _ _ => runs_pure rfl

theorem runs_readBoundary {t : Tag} {lo n idx : Nat} (ht : Usable b T t lo (lo + n)) (hh : lo + n ≤ total) :
    Runs L b B total s (readBoundary t lo n idx : M (World R N) ε Unit) T P (fun _ _ => True) :=
  runs_pass ht hh fun _ _ _ _ hc => by
    split
    · exact runs_read (hc.sub (by omega) (by omega)).usable (by omega)
    · exact runs_pure trivial

/-- The part of `is_char_boundary` that looks at the string. -/
theorem runs_selfBoundary {self : Tag} {idx : Nat} (hself : Usable b T self 0 (N + 1))
    (hh : N + 1 ≤ total) (hs : s.len ≤ N) :
    Runs L b B total s (do
      let (a, n) ← asStr self
      readBoundary a 0 n idx : M (World R N) ε Unit) T P (fun _ _ => True) :=
  runs_bind (runs_asStr hself hh hs) fun r _ g1 c1 => by
    obtain ⟨a, n⟩ := r
    obtain ⟨rfl, c1⟩ := c1
    exact runs_readBoundary (by rw [Nat.zero_add]; exact c1.usable) (by omega)

theorem runs_boundary {self : Tag} {idx : Nat} (hself : Usable b T self 0 (N + 1))
    (hh : N + 1 ≤ total) (hs : s.len ≤ N) :
    Runs L b B total s (callShared self fun self => do
      let (a, n) ← asStr self
      readBoundary a 0 n idx : M (World R N) ε Unit) T P (fun _ _ => True) :=
  runs_call hself hh fun _ _ _ _ hc => runs_selfBoundary hc.usable hh hs

end

/-! ## The string and the text argument -/

/-- The memory of the text argument, up to `total`: its bytes are in states `B`, preserved by reading
through `b`. -/
structure Text (R : Rules) (N : Nat) where
  b : Nat → Tag
  B : Nat → R.St → Prop
  total : Nat
  lt : N < total

/-- The bytes of the string are in the states `φ`; the bytes of the text argument may be read through
the tags `T`, of which at most `P` are protected. -/
def State (φ : Nat → R.St → Prop) (A : Text R N) (T P : Nat → List Tag) (w : World R N) : Prop :=
  (∀ l, l ≤ N → φ l (w.mem l) ∧ L.Below w.next (w.mem l)) ∧
  ∀ l, N < l → l < A.total → L.Side (A.b l) (A.B l) (T l) (P l) (w.mem l) ∧ L.Below w.next (w.mem l)

/-- The shared references to the text argument are kept. -/
def Keeps (N : Nat) (T T' : Nat → List Tag) : Prop := ∀ l, N < l → T l ⊆ T' l

theorem Keeps.refl {T} : Keeps N T T := fun _ _ _ h => h
theorem Keeps.trans {T T' T''} (h : Keeps N T T') (h' : Keeps N T' T'') : Keeps N T T'' :=
  fun l hl _ hx => h' l hl (h l hl hx)
theorem Keeps.covers {T T' t lo hi} (h : Keeps N T T') (hc : Covers T t lo hi) (hlo : N < lo) :
    Covers T' t lo hi :=
  fun l h1 h2 => h l (by omega) (hc l h1 h2)
theorem Keeps.usable {b T T' t lo hi} (h : Keeps N T T') (hc : Usable b T t lo hi) (hlo : N < lo) :
    Usable b T' t lo hi :=
  fun l h1 h2 => (hc l h1 h2).imp id (fun hx => h l (by omega) hx)

section
variable {L}
variable {φ φ' : Nat → R.St → Prop} {A : Text R N} {T P : Nat → List Tag} {w : World R N}

theorem State.map (h : State L φ A T P w) (hφ : ∀ l st, l ≤ N → φ l st → φ' l st) :
    State L φ' A T P w :=
  ⟨fun l hl => ⟨hφ l _ hl (h.1 l hl).1, (h.1 l hl).2⟩, h.2⟩

theorem State.put (h : State L φ A T P w) (s : ArrayString N) : State L φ A T P { w with str := s } := h

/-- The string and the text argument together, for `Runs`. -/
abbrev bases (b : Nat → Tag) (A : Text R N) : Nat → Tag := fun l => if l ≤ N then b l else A.b l
abbrev props (φ : Nat → R.St → Prop) (A : Text R N) : Nat → R.St → Prop :=
  fun l => if l ≤ N then φ l else A.B l
abbrev above (N : Nat) (T : Nat → List Tag) : Nat → List Tag := fun l => if l ≤ N then [] else T l

theorem State.inv {b : Nat → Tag} (h : State L φ A T P w) (hb : ∀ l, l ≤ N → L.Stable (b l) (φ l)) :
    Inv L (bases b A) (props φ A) A.total (above N T) (above N P) w := by
  intro l hl
  by_cases hlN : l ≤ N
  · simp only [bases, props, above, if_pos hlN]
    exact ⟨L.side_start (hb l hlN) (h.1 l hlN).1, (h.1 l hlN).2⟩
  · simp only [bases, props, above, if_neg hlN]
    exact h.2 l (by omega) hl

theorem State.of_inv {b : Nat → Tag} (h : Inv L (bases b A) (props φ A) A.total T (above N P) w) :
    State L φ A T P w := by
  refine ⟨fun l hl => ?_, fun l hl hl' => ?_⟩
  · have := h l (Nat.lt_of_le_of_lt hl A.lt)
    simp only [bases, props, above, if_pos hl] at this
    exact ⟨L.side_end this.1, this.2⟩
  · have := h l hl'
    simp only [bases, props, above, if_neg (Nat.not_le.2 hl)] at this
    exact this

theorem keeps_of_grows {T'} (h : Grows (above N T) T') : Keeps N T T' := by
  intro l hl x hx
  have := h l
  simp only [above, if_neg (Nat.not_le.2 hl)] at this
  exact this hx

/-- Run something that only reads. -/
theorem State.run {b : Nat → Tag} {m : M (World R N) ε α} {Q : α → (Nat → List Tag) → Prop}
    (h : State L φ A T P w) (hb : ∀ l, l ≤ N → L.Stable (b l) (φ l))
    (hm : Runs L (bases b A) (props φ A) A.total w.str m (above N T) (above N P) Q) :
    ∃ a w' T', m w = (.ok a, w') ∧ w'.str = w.str ∧ State L φ A T' P w' ∧ Keeps N T T' ∧ Q a T' := by
  obtain ⟨a, w', T', h1, h2, h3, h4, h5⟩ := hm w rfl (h.inv hb)
  exact ⟨a, w', T', h1, h2, .of_inv h3, keeps_of_grows h4, h5⟩

/-- Change the bytes `lo .. hi` of the string. -/
theorem State.touch {lo hi : Nat} {f : R.St → Option R.St} (h : State L φ A T P w)
    (hhi : hi ≤ N + 1)
    (hf : ∀ l st, lo ≤ l → l < hi → φ l st → L.Below w.next st →
      ∃ st', f st = some st' ∧ φ' l st' ∧ L.Below w.next st')
    (hφ : ∀ l st, l ≤ N → ¬ (lo ≤ l ∧ l < hi) → φ l st → φ' l st) :
    ∃ w', Borrow.touch lo hi f w = ((.ok () : Res ε Unit), w') ∧ w'.str = w.str ∧
      w'.next = w.next ∧ State L φ' A T P w' := by
  obtain ⟨mem', h1, h2⟩ := touch_run (ε := ε) (w := w) (lo := lo) (hi := hi) (f := f)
    (Q := fun l st => (l ≤ N → φ' l st ∧ L.Below w.next st) ∧ (N < l → l < A.total →
      L.Side (A.b l) (A.B l) (T l) (P l) st ∧ L.Below w.next st))
    (fun l e1 e2 => by
      obtain ⟨st', g1, g2, g3⟩ := hf l _ e1 e2 (h.1 l (by omega)).1 (h.1 l (by omega)).2
      exact ⟨st', g1, fun _ => ⟨g2, g3⟩, fun _ => by omega⟩)
    (fun l hl => ⟨fun hl' => ⟨hφ l _ hl' hl (h.1 l hl').1, (h.1 l hl').2⟩, h.2 l⟩)
  exact ⟨{ w with mem := mem' }, h1, rfl, rfl, fun l => (h2 l).1, fun l => (h2 l).2⟩

/-- Make a new tag and change the bytes `lo .. hi` of the string with it. -/
theorem State.fresh {lo hi : Nat} {f : Tag → R.St → Option R.St} (h : State L φ A T P w)
    (hhi : hi ≤ N + 1)
    (hf : ∀ l st, lo ≤ l → l < hi → φ l st → L.Below w.next st →
      ∃ st', f w.next st = some st' ∧ φ' l st' ∧ L.Below (w.next + 1) st')
    (hφ : ∀ l st, l ≤ N → ¬ (lo ≤ l ∧ l < hi) → φ l st → φ' l st) :
    ∃ w', (do
        let u ← Borrow.fresh
        Borrow.touch lo hi (f u)
        pure u : M (World R N) ε Tag) w = (.ok w.next, w') ∧ w'.str = w.str ∧ State L φ' A T P w' := by
  obtain ⟨mem', h1, h2⟩ := touch_run (ε := ε) (w := { w with next := w.next + 1 }) (lo := lo)
    (hi := hi) (f := f w.next)
    (Q := fun l st => (l ≤ N → φ' l st ∧ L.Below (w.next + 1) st) ∧ (N < l → l < A.total →
      L.Side (A.b l) (A.B l) (T l) (P l) st ∧ L.Below (w.next + 1) st))
    (fun l e1 e2 => by
      obtain ⟨st', g1, g2, g3⟩ := hf l _ e1 e2 (h.1 l (by omega)).1 (h.1 l (by omega)).2
      exact ⟨st', g1, fun _ => ⟨g2, g3⟩, fun _ => by omega⟩)
    (fun l hl => ⟨fun hl' => ⟨hφ l _ hl' hl (h.1 l hl').1, L.below_mono (h.1 l hl').2 (Nat.le_succ _)⟩,
      fun e1 e2 => ⟨(h.2 l e1 e2).1, L.below_mono (h.2 l e1 e2).2 (Nat.le_succ _)⟩⟩)
  refine ⟨{ str := w.str, mem := mem', next := w.next + 1 }, ?_, rfl, fun l => (h2 l).1, fun l => (h2 l).2⟩
  rw [bind_ok (m := Borrow.fresh) (w := w) (a := w.next) (w' := { w with next := w.next + 1 }) rfl,
    bind_ok h1]
  rfl

theorem State.unique {lo hi : Nat} {t : Tag} {p : Bool} (h : State L φ A T P w)
    (hhi : hi ≤ N + 1)
    (hf : ∀ l st, lo ≤ l → l < hi → φ l st → L.Below w.next st →
      ∃ st', R.unique t w.next p st = some st' ∧ φ' l st' ∧ L.Below (w.next + 1) st')
    (hφ : ∀ l st, l ≤ N → ¬ (lo ≤ l ∧ l < hi) → φ l st → φ' l st) :
    ∃ w', (retagUnique t lo hi p : M (World R N) ε Tag) w = (.ok w.next, w') ∧ w'.str = w.str ∧
      State L φ' A T P w' :=
  h.fresh hhi hf hφ

/-- Make a protected `&` to the text argument. -/
theorem State.argStart {t : Tag} {lo hi : Nat} (h : State L φ A T P w) (ht : Usable A.b T t lo hi)
    (hlo : N < lo) (hhi : hi ≤ A.total) :
    ∃ u w', (retagShared t lo hi true : M (World R N) ε Tag) w = (.ok u, w') ∧
      w'.str = w.str ∧ State L φ A (ins u lo hi T) (ins u lo hi P) w' := by
  obtain ⟨mem', h1, h2⟩ := touch_run (ε := ε) (w := { w with next := w.next + 1 }) (lo := lo)
    (hi := hi) (f := R.shared t w.next true)
    (Q := fun l st => (l ≤ N → φ l st ∧ L.Below (w.next + 1) st) ∧ (N < l → l < A.total →
      L.Side (A.b l) (A.B l) (ins w.next lo hi T l)
        (ins w.next lo hi P l) st ∧ L.Below (w.next + 1) st))
    (fun l h1 h2 => by
      obtain ⟨g1, g2⟩ := h.2 l (by omega) (by omega)
      obtain ⟨st', g1, g2, g3⟩ := L.side_shared true g1 g2 (ht l h1 h2)
      refine ⟨st', g1, fun _ => by omega, fun _ _ => ⟨?_, g3⟩⟩
      simpa only [ins, if_pos (And.intro h1 h2), if_true] using g2)
    (fun l hl => ⟨fun hl' => ⟨(h.1 l hl').1, L.below_mono (h.1 l hl').2 (Nat.le_succ _)⟩,
      fun h1 h2 => ⟨by simpa only [ins, if_neg hl] using (h.2 l h1 h2).1,
        L.below_mono (h.2 l h1 h2).2 (Nat.le_succ _)⟩⟩)
  refine ⟨w.next, { str := w.str, mem := mem', next := w.next + 1 }, ?_, rfl,
    fun l hl => (h2 l).1 hl, fun l hl hl' => (h2 l).2 hl hl'⟩
  unfold retagShared
  rw [bind_ok (m := Borrow.fresh) (w := w) (a := w.next) (w' := { w with next := w.next + 1 }) rfl,
    bind_ok h1]
  rfl

/-- The end of the protector made by `State.argStart`. -/
theorem State.argEnd {u : Tag} {lo hi : Nat} (h : State L φ A T (ins u lo hi P) w)
    (hlo : N < lo) (hhi : hi ≤ A.total) (hu : Covers T u lo hi) :
    ∃ w', (Borrow.release u lo hi : M (World R N) ε Unit) w = (.ok (), w') ∧
      w'.str = w.str ∧ State L φ A T P w' := by
  obtain ⟨mem', h1, h2⟩ := touch_run (ε := ε) (w := w) (lo := lo)
    (hi := hi) (f := R.release u)
    (Q := fun l st => (l ≤ N → φ l st ∧ L.Below w.next st) ∧ (N < l → l < A.total →
      L.Side (A.b l) (A.B l) (T l) (P l) st ∧ L.Below w.next st))
    (fun l h1 h2 => by
      obtain ⟨g1, g2⟩ := h.2 l (by omega) (by omega)
      obtain ⟨st', g1, g2, g3⟩ := L.side_release g1 g2 (hu l h1 h2)
      refine ⟨st', g1, fun _ => by omega, fun _ _ => ⟨L.side_mono g2 (fun _ h => h) ?_, g3⟩⟩
      intro x hx
      simp only [ins, h1, h2, and_self, if_true, List.mem_filter, List.mem_cons, ne_eq,
        decide_eq_true_eq] at hx
      exact hx.1.resolve_left hx.2)
    (fun l hl => ⟨fun hl' => h.1 l hl', fun h1 h2 => by
      simpa only [ins, if_neg hl] using h.2 l h1 h2⟩)
  exact ⟨{ w with mem := mem' }, h1, rfl, fun l hl => (h2 l).1 hl, fun l hl hl' => (h2 l).2 hl hl'⟩

theorem usable_self {b : Nat → Tag} {self : Tag} {X : Nat → List Tag} (hb : ∀ l, l ≤ N → b l = self) :
    Usable (bases b A) X self 0 (N + 1) :=
  fun l _ h2 => .inl (by simp only [bases, if_pos (show l ≤ N by omega)]; exact (hb l (by omega)).symm)

theorem usable_text {b : Nat → Tag} {t : Tag} {lo hi : Nat} (ht : Usable A.b T t lo hi) (hlo : N < lo) :
    Usable (bases b A) (above N T) t lo hi :=
  fun l h1 h2 => by
    simp only [bases, above, if_neg (show ¬ l ≤ N by omega)]
    exact ht l h1 h2

/-! ## Mutable references to the string -/

/-- The mutable references `c` to a byte, newest first, are in use; all are made from `root`. -/
def Top (L : Laws R) (root : Tag) (c : List Ref) (st : R.St) : Prop :=
  match c with
  | [] => (R.write root st).isSome
  | r :: c => L.Main root (r :: c) st

/-- The tag to be used. -/
def tagOf (root : Tag) : List Ref → Tag
  | [] => root
  | r :: _ => r.tag

def useAll (c : List Ref) : List Ref := c.map Ref.use

@[simp] theorem useAll_nil : useAll [] = [] := rfl
@[simp] theorem useAll_cons (r : Ref) (c : List Ref) : useAll (r :: c) = r.use :: useAll c := rfl
@[simp] theorem useAll_idem (c : List Ref) : useAll (useAll c) = useAll c := by
  induction c with
  | nil => rfl
  | cons r c ih => simp [ih, Ref.use]

section
variable {root : Tag} {c : List Ref} {n : Tag} {st : R.St}

theorem Top.use (h : Top L root c st) : Top L root (useAll c) st := by
  cases c with
  | nil => exact h
  | cons r c => exact L.main_relax h

theorem Top.stable : L.Stable (tagOf root c) (Top L root c) := by
  cases c with
  | nil => exact L.stable_root
  | cons r c => exact L.stable_main

theorem Top.stableUnder {p : Tag} {r : Ref} :
    L.Stable r.tag (Top L root (⟨p, .raw, false⟩ :: r :: c)) := L.stable_under

theorem Top.enter (p : Bool) (h : Top L root c st) (hn : L.Below n st) :
    ∃ st', R.unique (tagOf root c) n p st = some st' ∧ Top L root (⟨n, .new, p⟩ :: c) st' ∧
      L.Below (n + 1) st' := by
  cases c with
  | nil => exact L.main_enter p h hn
  | cons r c => exact L.main_unique p h hn

theorem Top.two (h : Top L root c st) (hn : L.Below n st) :
    ∃ st', R.twoPhase (tagOf root c) n st = some st' ∧ Top L root (⟨n, .raw, false⟩ :: c) st' ∧
      L.Below (n + 1) st' := by
  cases c with
  | nil => exact L.main_two_root h hn
  | cons r c => exact L.main_two h hn

theorem Top.pop {r : Ref} (h : Top L root (r :: c) st) (hr : r.protect = false) : Top L root c st := by
  cases c with
  | nil => exact L.main_root h hr
  | cons r' c => exact L.main_pop h hr

theorem Top.write (h : Top L root c st) (hn : L.Below n st) :
    ∃ st', R.write (tagOf root c) st = some st' ∧ Top L root (useAll c) st' ∧ L.Below n st' := by
  cases c with
  | nil => exact L.root_write h hn
  | cons r c => exact L.main_write h hn

end

/-- The references in use, byte by byte. -/
def Home (L : Laws R) (root : Tag) (c : Nat → List Ref) (l : Nat) (st : R.St) : Prop := Top L root (c l) st

/-- Inside a method with `&mut self`. -/
def own (self : Tag) (c : List Ref) : Nat → List Ref := fun _ => ⟨self, .used, true⟩ :: c

/-- One more reference on `lo .. hi`. -/
def push (r : Ref) (lo hi : Nat) (c : Nat → List Ref) : Nat → List Ref :=
  fun l => if lo ≤ l ∧ l < hi then r :: c l else c l

theorem push_in {r : Ref} {lo hi l : Nat} {c : Nat → List Ref} (h : lo ≤ l ∧ l < hi) :
    push r lo hi c l = r :: c l := if_pos h

theorem push_out {r : Ref} {lo hi l : Nat} {c : Nat → List Ref} (h : ¬ (lo ≤ l ∧ l < hi)) :
    push r lo hi c l = c l := if_neg h

section
variable {root self : Tag} {c : Nat → List Ref} {d : List Ref}

theorem State.use (h : State L (Home L root c) A T P w) :
    State L (Home L root fun l => useAll (c l)) A T P w :=
  h.map fun _ _ _ h => Top.use h

theorem stable_home : ∀ l, l ≤ N → L.Stable (tagOf root (c l)) (Home L root c l) :=
  fun _ _ => Top.stable

theorem stable_own : ∀ l, l ≤ N → L.Stable self (Home L root (own self d) l) :=
  fun _ _ => Top.stable (c := ⟨self, .used, true⟩ :: d)

/-- The two-phase borrow of a method call. -/
theorem State.two (h : State L (Home L root c) A T P w) (hc : ∀ l, l ≤ N → tagOf root (c l) = self) :
    ∃ t w', (retagTwoPhase self : M (World R N) ε Tag) w = (.ok t, w') ∧ w'.str = w.str ∧
      State L (Home L root fun l => ⟨t, .raw, false⟩ :: c l) A T P w' := by
  obtain ⟨w', e, s, g⟩ := h.fresh (ε := ε) (lo := 0) (hi := N + 1) (f := R.twoPhase self)
    (φ' := Home L root fun l => ⟨w.next, .raw, false⟩ :: c l) (by omega)
    (fun l st _ hl hm hb => by
      have := Top.two hm hb
      rwa [hc l (by omega)] at this)
    (fun l st _ _ => by omega)
  exact ⟨w.next, w', e, s, g⟩

theorem State.setSize (h : State L (Home L root c) A T P w) (hc : tagOf root (c N) = self) {z : UInt8} :
    ∃ w', (setSize self z : M (World R N) ε Unit) w = (.ok (), w') ∧ w'.str = { w.str with size := z } ∧
      State L (Home L root fun l => useAll (c l)) A T P w' := by
  obtain ⟨w1, e1, s1, _, g1⟩ := h.touch (ε := ε) (lo := N) (hi := N + 1) (f := R.write self)
    (φ' := Home L root fun l => useAll (c l)) (by omega)
    (fun l st h1 h2 hm hb => by
      obtain rfl : l = N := by omega
      have := Top.write hm hb
      rwa [hc] at this)
    (fun l st _ _ h => Top.use h)
  refine ⟨{ w1 with str := { w.str with size := z } }, ?_, rfl, g1.put _⟩
  unfold Borrow.setSize
  rw [writeAt, bind_ok e1, bind_ok (m := get) (a := w1.str) (w' := w1) rfl, s1]
  rfl

end

/-! ## Following a plain function -/

/-- Related outcomes. -/
inductive Match (Q : α → β → Prop) : Res ε α → Res ε β → Prop
  | ok {a b} : Q a b → Match Q (.ok a) (.ok b)
  | err {e} : Match Q (.err e) (.err e)
  | panic : Match Q .panic .panic
  | ub : Match Q .ub .ub
  | diverge : Match Q .diverge .diverge

theorem Match.settled {Q : α → β → Prop} {r : Res ε α} {r₀ : Res ε β} (h : Match Q r r₀) :
    Settled r ↔ Settled r₀ := by
  cases h <;> simp [Settled]

theorem Match.rfl {r : Res ε α} : Match Eq r r := by
  cases r <;> constructor; rfl

theorem Match.eq {r r₀ : Res ε α} (h : Match Eq r r₀) : r = r₀ := by
  cases h <;> simp_all

/-- Enough for the memory accesses to stay inside. -/
def Shape (s : ArrayString N) : Prop := s.array.length = N ∧ s.len ≤ N

/-- `m` does the same as the plain `m₀`, and unless that has undefined behaviour or does not end, leaves
the bytes of the string in the states `φ`, and the shared references to the text usable. -/
def Sim (L : Laws R) (φ : Nat → R.St → Prop) (A : Text R N) (P T : Nat → List Tag)
    (m : M (World R N) ε α) (m₀ : M (ArrayString N) ε β) (w : World R N)
    (Q : α → β → (Nat → List Tag) → Prop) : Prop :=
  ∃ r w' T', m w = (r, w') ∧ w'.str = (m₀ w.str).2 ∧ Match (fun a b => Q a b T') r (m₀ w.str).1 ∧
    (Settled (m₀ w.str).1 → State L φ A T' P w' ∧ Keeps N T T' ∧ Shape (m₀ w.str).2)

/-- `m` does exactly the same as `m₀`. -/
abbrev Same (L : Laws R) (φ : Nat → R.St → Prop) (A : Text R N) (P T : Nat → List Tag)
    (m : M (World R N) ε α) (m₀ : M (ArrayString N) ε α) (w : World R N) : Prop :=
  Sim L φ A P T m m₀ w fun a b _ => a = b

section
variable {m : M (World R N) ε α} {γ δ : Type} {m₀ : M (ArrayString N) ε β} {s : ArrayString N}
  {Q : α → β → (Nat → List Tag) → Prop} {Q' : γ → δ → (Nat → List Tag) → Prop}

theorem sim_map (h : Sim L φ A P T m m₀ w Q) (hφ : ∀ l st, l ≤ N → φ l st → φ' l st) :
    Sim L φ' A P T m m₀ w Q := by
  obtain ⟨r, w', T', h1, h2, h3, h4⟩ := h
  exact ⟨r, w', T', h1, h2, h3, fun hr => ⟨(h4 hr).1.map hφ, (h4 hr).2⟩⟩

theorem sim_keeps {T₀} (h : Sim L φ A P T m m₀ w Q) (hk : Keeps N T₀ T) : Sim L φ A P T₀ m m₀ w Q := by
  obtain ⟨r, w', T', h1, h2, h3, h4⟩ := h
  exact ⟨r, w', T', h1, h2, h3, fun hr => ⟨(h4 hr).1, hk.trans (h4 hr).2.1, (h4 hr).2.2⟩⟩

theorem sim_pure {a : α} {b : β} (h : State L φ A T P w) (hs : Shape w.str) (hq : Q a b T) :
    Sim L φ A P T (pure a : M _ ε α) (pure b : M _ ε β) w Q :=
  ⟨.ok a, w, T, rfl, rfl, .ok hq, fun _ => ⟨h, .refl, hs⟩⟩

theorem sim_lift {r : Res ε α} (h : State L φ A T P w) (hs : Shape w.str) :
    Same L φ A P T (M.lift r) (M.lift r) w :=
  ⟨r, w, T, rfl, rfl, Match.rfl, fun _ => ⟨h, .refl, hs⟩⟩

theorem sim_bind {f : α → M (World R N) ε γ} {g : β → M (ArrayString N) ε δ}
    (h : Sim L φ A P T m m₀ w Q) (hφ : ∀ l st, l ≤ N → φ l st → φ' l st)
    (h' : ∀ a b w' T', m₀ w.str = (.ok b, w'.str) → State L φ A T' P w' → Keeps N T T' → Shape w'.str →
      Q a b T' → Sim L φ' A P T' (f a) (g b) w' Q') :
    Sim L φ' A P T (m >>= f) (m₀ >>= g) w Q' := by
  obtain ⟨r, w1, T1, h1, h2, h3, h4⟩ := h
  generalize hp : m₀ w.str = p at *
  obtain ⟨r₀, s₁⟩ := p
  cases h3 with
  | @ok a b hq =>
    obtain ⟨g1, g2, g3⟩ := h4 settled_ok
    simp only at h2; subst h2
    have := sim_keeps (h' a b w1 T1 rfl g1 g2 g3 hq) g2
    obtain ⟨r, w2, T2, k1, k2, k3, k4⟩ := this
    refine ⟨r, w2, T2, ?_, ?_⟩
    · rw [bind_ok h1, k1]
    · rw [bind_ok hp]; exact ⟨k2, k3, k4⟩
  | err =>
    obtain ⟨g1, g2, g3⟩ := h4 settled_err
    refine ⟨_, w1, T1, bind_err h1, ?_⟩
    rw [bind_err hp]
    exact ⟨h2, .err, fun _ => ⟨g1.map hφ, g2, g3⟩⟩
  | panic =>
    obtain ⟨g1, g2, g3⟩ := h4 settled_panic
    refine ⟨.panic, w1, T1, ?_, ?_⟩
    · show M.bind m f w = _
      simp only [M.bind, h1]
    · have : (m₀ >>= g) w.str = (.panic, s₁) := by
        show M.bind m₀ g w.str = _
        simp only [M.bind, hp]
      rw [this]
      exact ⟨h2, .panic, fun _ => ⟨g1.map hφ, g2, g3⟩⟩
  | ub =>
    refine ⟨.ub, w1, T1, ?_, ?_⟩
    · show M.bind m f w = _
      simp only [M.bind, h1]
    · have : (m₀ >>= g) w.str = (.ub, s₁) := by
        show M.bind m₀ g w.str = _
        simp only [M.bind, hp]
      rw [this]
      exact ⟨h2, .ub, fun hr => absurd rfl hr.1⟩
  | diverge =>
    refine ⟨.diverge, w1, T1, ?_, ?_⟩
    · show M.bind m f w = _
      simp only [M.bind, h1]
    · have : (m₀ >>= g) w.str = (.diverge, s₁) := by
        show M.bind m₀ g w.str = _
        simp only [M.bind, hp]
      rw [this]
      exact ⟨h2, .diverge, fun hr => absurd rfl hr.2⟩

/-- A step that only the version with tags makes. -/
theorem sim_left {m : M (World R N) ε α} {f : α → M (World R N) ε γ} {g : M (ArrayString N) ε δ} {a : α}
    {w' : World R N} {T'} (h : m w = (.ok a, w')) (hs : w'.str = w.str) (hk : Keeps N T T')
    (h' : Sim L φ A P T' (f a) g w' Q') : Sim L φ A P T (m >>= f) g w Q' := by
  obtain ⟨r, w2, T2, k1, k2, k3, k4⟩ := sim_keeps h' hk
  rw [hs] at k2 k3 k4
  exact ⟨r, w2, T2, by rw [bind_ok h, k1], k2, k3, k4⟩

/-- A step that only the plain function makes. -/
theorem sim_right {m : M (World R N) ε γ} {m₀ : M (ArrayString N) ε β} {g : β → M (ArrayString N) ε δ} {b : β}
    (h : m₀ w.str = (.ok b, w.str)) (h' : Sim L φ A P T m (g b) w Q') : Sim L φ A P T m (m₀ >>= g) w Q' := by
  obtain ⟨r, w2, T2, k1, k2⟩ := h'
  refine ⟨r, w2, T2, k1, ?_⟩
  rw [bind_ok h]
  exact k2

/-- Both make a step that does not depend on the string. -/
theorem sim_lift_bind {r : Res ε α} {f : α → M (World R N) ε γ} {g : α → M (ArrayString N) ε δ}
    (h : State L φ A T P w) (hs : Shape w.str)
    (h' : ∀ a, r = .ok a → Sim L φ A P T (f a) (g a) w Q') :
    Sim L φ A P T (M.lift r >>= f) (M.lift r >>= g) w Q' := by
  cases r with
  | ok a => exact h' a rfl
  | err e => exact ⟨.err e, w, T, rfl, rfl, .err, fun _ => ⟨h, .refl, hs⟩⟩
  | panic => exact ⟨.panic, w, T, rfl, rfl, .panic, fun _ => ⟨h, .refl, hs⟩⟩
  | ub => exact ⟨.ub, w, T, rfl, rfl, .ub, fun hr => absurd rfl hr.1⟩
  | diverge => exact ⟨.diverge, w, T, rfl, rfl, .diverge, fun hr => absurd rfl hr.2⟩

theorem sim_try_bind [ErrFrom ε' ε] {r : Res ε' α} {f : α → M (World R N) ε γ} {g : α → M (ArrayString N) ε δ}
    (h : State L φ A T P w) (hs : Shape w.str)
    (h' : ∀ a, r = .ok a → Sim L φ A P T (f a) (g a) w Q') :
    Sim L φ A P T (M.try_ r >>= f) (M.try_ r >>= g) w Q' := by
  cases r with
  | ok a => exact h' a rfl
  | err e => exact ⟨.err (ErrFrom.from_ e), w, T, rfl, rfl, .err, fun _ => ⟨h, .refl, hs⟩⟩
  | panic => exact ⟨.panic, w, T, rfl, rfl, .panic, fun _ => ⟨h, .refl, hs⟩⟩
  | ub => exact ⟨.ub, w, T, rfl, rfl, .ub, fun hr => absurd rfl hr.1⟩
  | diverge => exact ⟨.diverge, w, T, rfl, rfl, .diverge, fun hr => absurd rfl hr.2⟩

theorem sim_mapErr {f : ε → ε'} (h : Sim L φ A P T m m₀ w Q) :
    Sim L φ A P T (M.mapErr f m) (M.mapErr f m₀) w Q := by
  obtain ⟨r, w1, T1, h1, h2, h3, h4⟩ := h
  refine ⟨r.mapErr f, w1, T1, by simp only [M.mapErr, h1], h2, ?_, fun hr => h4 ?_⟩
  · show Match _ _ ((m₀ w.str).1.mapErr f)
    generalize (m₀ w.str).1 = r₀ at h3
    cases h3 <;> constructor
    assumption
  · replace hr : Settled ((m₀ w.str).1.mapErr f) := hr
    cases hm : (m₀ w.str).1 <;> simp_all [Settled, Res.mapErr]

theorem sim_tryM [ErrFrom ε ε'] (h : Sim L φ A P T m m₀ w Q) :
    Sim L φ A P T (M.tryM m : M _ ε' _) (M.tryM m₀) w Q :=
  sim_mapErr (f := ErrFrom.from_) h

theorem sim_attempt {m₀ : M (ArrayString N) ε α} (h : Same L φ A P T m m₀ w) :
    Same L φ A P T (M.attempt m : M _ ε' _) (M.attempt m₀) w := by
  obtain ⟨r, w1, T1, h1, h2, h3, h4⟩ := h
  refine ⟨r.attempt, w1, T1, by simp only [M.attempt, h1], h2, ?_, fun hr => h4 ?_⟩
  · show Match _ _ ((m₀ w.str).1.attempt)
    rw [Match.eq h3]
    exact Match.rfl
  · replace hr : Settled ((m₀ w.str).1.attempt : Res ε' _) := hr
    cases hm : (m₀ w.str).1 <;> simp_all [Settled, Res.attempt]

/-- Pass a `&` to the text argument to a function. -/
theorem sim_passText {t : Tag} {lo hi : Nat} {body : Tag → M (World R N) ε α} (h : State L φ' A T P w)
    (ht : Usable A.b T t lo hi) (hlo : N < lo) (hhi : hi ≤ A.total)
    (hb : ∀ u w' T' P', w'.str = w.str → State L φ' A T' P' w' → Keeps N T T' → Covers T' u lo hi →
      Sim L φ A P' T' (body u) m₀ w' Q) :
    Sim L φ A P T (passShared t lo hi body) m₀ w Q := by
  obtain ⟨u, w1, e1, s1, g1⟩ := h.argStart (ε := ε) ht hlo hhi
  have hk : Keeps N T (ins u lo hi T) := fun l _ => ins_grows l
  obtain ⟨r, w2, T2, e2, s2, m2, g2⟩ := hb u w1 _ _ s1 g1 hk ins_covers
  rw [s1] at s2 m2 g2
  by_cases hr : Settled (m₀ w.str).1
  · obtain ⟨g2, k2, sh⟩ := g2 hr
    obtain ⟨w3, e3, s3, g3⟩ := g2.argEnd (ε := Empty) hlo hhi (k2.covers ins_covers hlo)
    refine ⟨r, w3, T2, ?_, s3.trans s2, m2, fun _ => ⟨g3, hk.trans k2, sh⟩⟩
    unfold passShared
    rw [bind_ok e1, protecting_run e2 (m2.settled.2 hr) e3]
  · refine ⟨r, w2, T2, ?_, s2, m2, fun h => absurd h hr⟩
    unfold passShared
    rw [bind_ok e1, protecting_fail e2 (fun h => hr (m2.settled.1 h))]

/-- Pass a `&mut` to the bytes `lo .. hi` of the string to a function. -/
theorem sim_passUnique {root t : Tag} {c : Nat → List Ref} {lo hi : Nat} {body : Tag → M (World R N) ε α}
    (h : State L (Home L root c) A T P w) (hhi : hi ≤ N + 1)
    (ht : ∀ l, lo ≤ l → l < hi → tagOf root (c l) = t)
    (hb : ∀ u w', w'.str = w.str →
      State L (Home L root (push ⟨u, .used, true⟩ lo hi fun l => useAll (c l))) A T P w' →
      Sim L (Home L root (push ⟨u, .used, true⟩ lo hi fun l => useAll (c l))) A P T (body u) m₀ w' Q) :
    Sim L (Home L root fun l => useAll (c l)) A P T (passUnique t lo hi body) m₀ w Q := by
  obtain ⟨w1, e1, s1, g1⟩ := h.unique (ε := ε) (lo := lo) (hi := hi) (t := t) (p := true)
    (φ' := Home L root (push ⟨w.next, .used, true⟩ lo hi fun l => useAll (c l))) hhi
    (fun l st h1 h2 hm hn => by
      obtain ⟨st', q1, q2, q3⟩ := Top.enter true hm hn
      rw [ht l h1 h2] at q1
      refine ⟨st', q1, ?_, q3⟩
      unfold Home
      rw [push_in ⟨h1, h2⟩]
      exact Top.use q2)
    (fun l st _ hl hm => by
      unfold Home
      rw [push_out hl]
      exact Top.use hm)
  obtain ⟨r, w2, T2, e2, s2, m2, g2⟩ := hb w.next w1 s1 g1
  rw [s1] at s2 m2 g2
  by_cases hr : Settled (m₀ w.str).1
  · obtain ⟨g2, k2, sh⟩ := g2 hr
    obtain ⟨w3, e3, s3, _, g3⟩ := g2.touch (ε := Empty) (lo := lo) (hi := hi) (f := R.release w.next)
      (φ' := Home L root fun l => useAll (c l)) hhi
      (fun l st h1 h2 hm hn => by
        unfold Home at hm
        rw [push_in ⟨h1, h2⟩] at hm
        obtain ⟨st', q1, q2, q3⟩ := L.main_release hm hn
        refine ⟨st', q1, ?_, q3⟩
        have := Top.pop (c := useAll (useAll (c l))) q2 rfl
        rw [useAll_idem] at this
        exact this)
      (fun l st _ hl hm => by
        unfold Home at hm
        rw [push_out hl] at hm
        exact hm)
    refine ⟨r, w3, T2, ?_, s3.trans s2, m2, fun _ => ⟨g3, k2, sh⟩⟩
    unfold passUnique
    rw [bind_ok e1, protecting_run e2 (m2.settled.2 hr) e3]
  · refine ⟨r, w2, T2, ?_, s2, m2, fun h => absurd h hr⟩
    unfold passUnique
    rw [bind_ok e1, protecting_fail e2 (fun h => hr (m2.settled.1 h))]

/-- Pass a `&mut` to the whole string to a function. -/
theorem sim_passAll {root t : Tag} {c : List Ref} {body : Tag → M (World R N) ε α}
    (h : State L (Home L root fun _ => c) A T P w) (ht : tagOf root c = t)
    (hb : ∀ u w', w'.str = w.str → State L (Home L root (own u (useAll c))) A T P w' →
      Sim L (Home L root (own u (useAll c))) A P T (body u) m₀ w' Q) :
    Sim L (Home L root fun _ => useAll c) A P T (passUnique t 0 (N + 1) body) m₀ w Q := by
  refine sim_passUnique (lo := 0) (hi := N + 1) (t := t) (body := body) (m₀ := m₀) (Q := Q) h
    (Nat.le_refl _) (fun _ _ _ => ht) ?_
  intro u w' hs g
  have he : ∀ l st, l ≤ N → (Home L root (push ⟨u, .used, true⟩ 0 (N + 1)
      fun l => useAll ((fun _ => c : Nat → List Ref) l)) l st ↔
      Home L root (own u (useAll c)) l st) := by
    intro l st hl
    unfold Home
    rw [push_in ⟨Nat.zero_le _, by omega⟩]
    exact Iff.rfl
  exact sim_map (hb u w' hs (g.map fun l st hl h => (he l st hl).1 h)) fun l st hl h => (he l st hl).2 h

/-- A method of the string gets a reference that the string's owner, or the function that has it, made
with a two-phase borrow. -/
theorem sim_passSelf {root t : Tag} {c : List Ref} {body : Tag → M (World R N) ε α}
    (h : State L (Home L root fun _ => ⟨t, .raw, false⟩ :: c) A T P w) (hc : useAll c = c)
    (hb : ∀ u w', w'.str = w.str → State L (Home L root (own u (⟨t, .used, false⟩ :: c))) A T P w' →
      Sim L (Home L root (own u (⟨t, .used, false⟩ :: c))) A P T (body u) m₀ w' Q) :
    Sim L (Home L root fun _ => c) A P T (passUnique t 0 (N + 1) body) m₀ w Q := by
  have he : useAll (⟨t, .raw, false⟩ :: c) = ⟨t, .used, false⟩ :: c := by rw [useAll_cons, hc]; rfl
  refine sim_map (sim_passAll (body := body) (m₀ := m₀) (Q := Q) h rfl ?_) fun l st _ hm => ?_
  · rw [he]; exact hb
  · unfold Home at hm ⊢
    rw [he] at hm
    exact Top.pop hm rfl

/-- `self.method(..)` -/
theorem sim_callMut {root self : Tag} {c : List Ref} {body : Tag → M (World R N) ε α}
    (h : State L (Home L root fun _ => c) A T P w) (hself : tagOf root c = self) (hc : useAll c = c)
    (hb : ∀ t u w', w'.str = w.str → State L (Home L root (own u (⟨t, .used, false⟩ :: c))) A T P w' →
      Sim L (Home L root (own u (⟨t, .used, false⟩ :: c))) A P T (body u) m₀ w' Q) :
    Sim L (Home L root fun _ => c) A P T (callMut self body) m₀ w Q := by
  obtain ⟨t, w1, e1, s1, g1⟩ := h.two (ε := ε) (fun _ _ => hself)
  unfold callMut
  exact sim_left e1 s1 .refl (sim_passSelf g1 hc fun u w' hs g => hb t u w' (hs.trans s1) g)

end

/-! ## Calls that only read -/

section
variable {self : Tag}

theorem State.len (h : State L φ A T P w) (hb : ∀ l, l ≤ N → L.Stable self (φ l)) :
    ∃ w' T', (Borrow.len self : M (World R N) ε Nat) w = (.ok w.str.len, w') ∧ w'.str = w.str ∧
      State L φ A T' P w' ∧ Keeps N T T' := by
  obtain ⟨a, w', T', h1, h2, h3, h4, h5⟩ := h.run (b := fun _ => self) hb
    (runs_len (ε := ε) (usable_self (fun _ _ => rfl)) A.lt)
  exact ⟨w', T', by rw [h1, h5], h2, h3, h4⟩

theorem State.look (h : State L φ A T P w) (hb : ∀ l, l ≤ N → L.Stable self (φ l)) (hs : Shape w.str) :
    ∃ w' T', (Borrow.look self : M (World R N) ε Nat) w = (.ok w.str.len, w') ∧ w'.str = w.str ∧
      State L φ A T' P w' ∧ Keeps N T T' := by
  obtain ⟨a, w', T', h1, h2, h3, h4, h5⟩ := h.run (b := fun _ => self) hb
    (runs_look (ε := ε) (usable_self (fun _ _ => rfl)) A.lt hs.2)
  exact ⟨w', T', by rw [h1, h5], h2, h3, h4⟩

theorem State.selfBoundary {idx : Nat} (h : State L φ A T P w) (hb : ∀ l, l ≤ N → L.Stable self (φ l))
    (hs : Shape w.str) :
    ∃ w' T', (Borrow.selfBoundary self idx : M (World R N) ε Unit) w = (.ok (), w') ∧ w'.str = w.str ∧
      State L φ A T' P w' ∧ Keeps N T T' := by
  obtain ⟨a, w', T', h1, h2, h3, h4, h5⟩ := h.run (b := fun _ => self) hb
    (runs_selfBoundary (ε := ε) (idx := idx) (usable_self (fun _ _ => rfl)) A.lt hs.2)
  exact ⟨w', T', h1, h2, h3, h4⟩

theorem sim_isCharBoundary {idx : Nat} (h : State L φ A T P w) (hb : ∀ l, l ≤ N → L.Stable self (φ l))
    (hs : Shape w.str) :
    Same L φ A P T (Borrow.isCharBoundary self idx) (M.lift (w.str.isCharBoundary idx)) w := by
  obtain ⟨a, w1, T1, h1, h2, h3, h4, h5⟩ := h.run (b := fun _ => self) hb
    (runs_boundary (ε := Utf8) (idx := idx) (usable_self (fun _ _ => rfl)) A.lt hs.2)
  refine ⟨w.str.isCharBoundary idx, w1, T1, ?_, h2, Match.rfl, fun _ => ⟨h3, h4, hs⟩⟩
  unfold Borrow.isCharBoundary
  rw [bind_ok h1, bind_ok (m := get) (w := w1) (a := w1.str) (w' := w1) rfl, h2]
  rfl

theorem sim_tryBoundary {idx : Nat} (h : State L φ A T P w) (hb : ∀ l, l ≤ N → L.Stable self (φ l))
    (hs : Shape w.str) :
    Same L φ A P T (M.tryM (Borrow.isCharBoundary self idx) : M _ Error _)
      (M.try_ (w.str.isCharBoundary idx)) w :=
  sim_tryM (m₀ := M.lift (w.str.isCharBoundary idx)) (sim_isCharBoundary h hb hs)

theorem State.rangeEnd {r : RangeB} (h : State L φ A T P w) (hb : ∀ l, l ≤ N → L.Stable self (φ l)) :
    ∃ w' T', (Borrow.rangeEnd self r : M (World R N) ε Nat) w =
        (.ok (ArrayString.rangeEnd r w.str.len), w') ∧ w'.str = w.str ∧
      State L φ A T' P w' ∧ Keeps N T T' := by
  unfold Borrow.rangeEnd ArrayString.rangeEnd
  cases r.stop with
  | included t => exact ⟨w, T, rfl, rfl, h, .refl⟩
  | excluded t => exact ⟨w, T, rfl, rfl, h, .refl⟩
  | unbounded => exact h.len hb

end

/-! ## `replace_range` -/

theorem inside_ok {a b : Nat} {u : Unit} (h : isInsideBoundary a b = .ok u) : a ≤ b := by
  unfold isInsideBoundary at h
  split at h
  · assumption
  · cases h

theorem add_ok {a b c : Nat} (h : addUsize a b = (.ok c : Res ε Nat)) (hab : a + b ≤ usizeMax) : c = a + b := by
  rw [addUsize_ok hab] at h
  cases h
  rfl

theorem sub_ok {a b c : Nat} (h : subUsize a b = (.ok c : Res ε Nat)) (hab : b ≤ a) : c = a - b := by
  rw [subUsize_ok hab] at h
  cases h
  rfl

theorem copy_length {mem mem' : Bytes} {src dst n : Nat}
    (h : memCopy mem src dst n = (.ok mem' : Res ε Bytes)) : mem'.length = mem.length := by
  unfold memCopy at h
  split at h <;> cases h
  simp only [List.length_append, List.length_take, List.length_drop]
  omega

theorem copyFrom_length {mem src mem' : Bytes} {dst n : Nat}
    (h : memCopyFrom mem src dst n = (.ok mem' : Res ε Bytes)) : mem'.length = mem.length := by
  unfold memCopyFrom at h
  split at h <;> cases h
  simp only [List.length_append, List.length_take, List.length_drop]
  omega

theorem shape_lossy {mem : Bytes} {k : Nat} (hm : mem.length = N) (hk : k ≤ N) :
    Shape (⟨mem, intoLossy k⟩ : ArrayString N) := by
  refine ⟨hm, ?_⟩
  show (UInt8.ofNat k).toNat ≤ N
  simp only [UInt8.toNat_ofNat']
  exact Nat.le_trans (Nat.mod_le _ _) hk

section
variable {root self : Tag} {c : Nat → List Ref} {d : List Ref}

/-- Make a `&mut` to a part of the string from one that is in use. -/
theorem State.uniqueHome {lo hi : Nat} {t : Tag} {p : Bool} (h : State L (Home L root c) A T P w)
    (hhi : hi ≤ N + 1) (ht : ∀ l, lo ≤ l → l < hi → ∃ r c', c l = r :: c' ∧ r.tag = t) :
    ∃ w', (retagUnique t lo hi p : M (World R N) ε Tag) w = (.ok w.next, w') ∧ w'.str = w.str ∧
      State L (Home L root (push ⟨w.next, .new, p⟩ lo hi c)) A T P w' :=
  h.unique hhi
    (fun l st h1 h2 hm hb => by
      obtain ⟨r, c', hc, rfl⟩ := ht l h1 h2
      unfold Home at hm ⊢
      rw [push_in ⟨h1, h2⟩, hc]
      rw [hc] at hm
      exact L.main_unique p hm hb)
    (fun l st _ hl hm => by
      unfold Home at hm ⊢
      rw [push_out hl]
      exact hm)

/-- While `p` was made from `self` and not written through. -/
local notation "ptr(" N ", " self ", " p ", " d ")" => push (Ref.mk p Kind.raw false) 0 N (own self d)

/-- While `p` may be written through. -/
local notation "wri(" N ", " self ", " p ", " d ")" => push (Ref.mk p Kind.used false) 0 N (own self d)

theorem run_asMutPtr (h : State L (Home L root (own self d)) A T P w) :
    ∃ p w', (asMutPtr self : M (World R N) ε Tag) w = (.ok p, w') ∧ w'.str = w.str ∧
      State L (Home L root ptr(N, self, p, d)) A T P w' := by
  obtain ⟨w1, e1, s1, h1⟩ := h.uniqueHome (ε := ε) (lo := 0) (hi := N) (t := self) (p := false)
    (by omega) (fun l _ _ => ⟨_, _, rfl, rfl⟩)
  obtain ⟨w2, e2, s2, h2⟩ := h1.uniqueHome (ε := ε) (lo := 0) (hi := N) (t := w.next) (p := false)
    (by omega) (fun l h1 h2 => ⟨_, _, push_in ⟨h1, h2⟩, rfl⟩)
  obtain ⟨w3, e3, s3, h3⟩ := h2.uniqueHome (ε := ε) (lo := 0) (hi := N) (t := w1.next) (p := true)
    (by omega) (fun l h1 h2 => ⟨_, _, push_in ⟨h1, h2⟩, rfl⟩)
  -- the cast to a raw pointer and the return from `as_mut_ptr`
  obtain ⟨mem', e4, h4⟩ := touch_run (ε := ε) (w := { w3 with next := w3.next + 1 }) (lo := 0)
    (hi := N) (f := R.rawMut w2.next w3.next)
    (Q := fun l st => (l < N → ∃ st'', R.release w2.next st = some st'' ∧
        L.Main root (⟨R.rawTag w2.next w3.next, .raw, false⟩ :: ⟨w1.next, .new, false⟩ ::
          ⟨w.next, .new, false⟩ :: ⟨self, .used, true⟩ :: d) st'' ∧ L.Below (w3.next + 1) st'') ∧
      (¬ l < N → st = w3.mem l))
    (fun l _ hl => by
      obtain ⟨hm, hb⟩ := h3.1 l (by omega)
      unfold Home at hm
      rw [push_in ⟨Nat.zero_le _, hl⟩, push_in ⟨Nat.zero_le _, hl⟩, push_in ⟨Nat.zero_le _, hl⟩] at hm
      obtain ⟨st', st'', g1, g2, g3, g4⟩ := L.main_raw hm hb
      exact ⟨st', g1, fun _ => ⟨st'', g2, g3, g4⟩, fun hl' => absurd hl hl'⟩)
    (fun l hl => ⟨fun hl' => absurd ⟨Nat.zero_le _, hl'⟩ hl, fun _ => rfl⟩)
  obtain ⟨mem'', e5, h5⟩ := touch_run (ε := ε)
    (w := { str := w3.str, mem := mem', next := w3.next + 1 }) (lo := 0)
    (hi := N) (f := R.release w2.next)
    (Q := fun l st => (l < N →
        L.Main root (⟨R.rawTag w2.next w3.next, .raw, false⟩ :: ⟨w1.next, .new, false⟩ ::
          ⟨w.next, .new, false⟩ :: ⟨self, .used, true⟩ :: d) st ∧ L.Below (w3.next + 1) st) ∧
      (¬ l < N → st = w3.mem l))
    (fun l _ hl => by
      obtain ⟨st'', g1, g2⟩ := (h4 l).1 hl
      exact ⟨st'', g1, fun _ => g2, fun hl' => absurd hl hl'⟩)
    (fun l hl => ⟨fun hl' => absurd ⟨Nat.zero_le _, hl'⟩ hl, (h4 l).2⟩)
  refine ⟨R.rawTag w2.next w3.next, { str := w3.str, mem := mem'', next := w3.next + 1 }, ?_,
    s3.trans (s2.trans s1), fun l hl => ?_, fun l hl hl' => ?_⟩
  · unfold asMutPtr
    rw [bind_ok e1, bind_ok e2, bind_ok e3,
      bind_ok (m := fresh) (w := w3) (a := w3.next) (w' := { w3 with next := w3.next + 1 }) rfl,
      bind_ok e4, release, bind_ok e5]
    rfl
  · unfold Home
    by_cases hlN : l < N
    · obtain ⟨g1, g2⟩ := (h5 l).1 hlN
      rw [push_in ⟨Nat.zero_le _, hlN⟩]
      exact ⟨L.main_hide (L.main_hide g1 (by simp)) (by simp), g2⟩
    · have hn : ¬ (0 ≤ l ∧ l < N) := by omega
      rw [push_out hn]
      have := h3.1 l hl
      unfold Home at this
      rw [push_out hn, push_out hn, push_out hn] at this
      simp only [(h5 l).2 hlN]
      exact ⟨this.1, L.below_mono this.2 (Nat.le_succ _)⟩
  · simp only [(h5 l).2 (by omega)]
    exact ⟨(h3.2 l hl hl').1, L.below_mono (h3.2 l hl hl').2 (Nat.le_succ _)⟩

theorem stable_ptr {p : Tag} : ∀ l, l ≤ N → L.Stable self (Home L root ptr(N, self, p, d) l) := by
  intro l _
  by_cases h : 0 ≤ l ∧ l < N
  · have : Home L root ptr(N, self, p, d) l = L.Main root (⟨p, .raw, false⟩ :: ⟨self, .used, true⟩ :: d) := by
      funext st; unfold Home; rw [push_in h]; rfl
    rw [this]; exact L.stable_under (r := ⟨self, .used, true⟩)
  · have : Home L root ptr(N, self, p, d) l = L.Main root (⟨self, .used, true⟩ :: d) := by
      funext st; unfold Home; rw [push_out h]; rfl
    rw [this]; exact L.stable_main (r := ⟨self, .used, true⟩)

/-- Writing through the raw pointer. -/
theorem State.write {p : Tag} {lo hi : Nat} (h : State L (Home L root wri(N, self, p, d)) A T P w)
    (hd : useAll d = d) (hhi : hi ≤ N) :
    ∃ w', (writeAt p lo hi : M (World R N) ε Unit) w = (.ok (), w') ∧ w'.str = w.str ∧
      State L (Home L root wri(N, self, p, d)) A T P w' := by
  obtain ⟨w', h1, h2, _, h3⟩ := h.touch (ε := ε) (lo := lo) (hi := hi) (f := R.write p)
    (φ' := Home L root wri(N, self, p, d)) (by omega)
    (fun l st _ hl hm hb => by
      unfold Home at hm ⊢
      rw [push_in ⟨Nat.zero_le _, by omega⟩] at hm ⊢
      obtain ⟨st', q1, q2, q3⟩ := Top.write hm hb
      refine ⟨st', q1, ?_, q3⟩
      simp only [own, useAll_cons, hd] at q2
      exact q2)
    (fun l st _ _ hm => hm)
  exact ⟨w', h1, h2, h3⟩

theorem State.read {p : Tag} {lo hi : Nat} (h : State L (Home L root ptr(N, self, p, d)) A T P w)
    (hhi : hi ≤ N) :
    ∃ w', (readAt p lo hi : M (World R N) ε Unit) w = (.ok (), w') ∧ w'.str = w.str ∧
      State L (Home L root ptr(N, self, p, d)) A T P w' := by
  obtain ⟨w', h1, h2, _, h3⟩ := h.touch (ε := ε) (lo := lo) (hi := hi) (f := R.read p)
    (φ' := Home L root ptr(N, self, p, d)) (by omega)
    (fun l st _ hl hm hb => by
      unfold Home at hm ⊢
      rw [push_in ⟨Nat.zero_le _, by omega⟩] at hm ⊢
      exact L.main_read hm hb)
    (fun l st _ _ hm => hm)
  exact ⟨w', h1, h2, h3⟩

theorem State.relax {p : Tag} (h : State L (Home L root ptr(N, self, p, d)) A T P w) (hd : useAll d = d) :
    State L (Home L root wri(N, self, p, d)) A T P w :=
  h.map fun l st _ hm => by
    have := Top.use hm
    unfold Home
    by_cases hl : 0 ≤ l ∧ l < N
    · rw [push_in hl] at this ⊢
      simp only [own, useAll_cons, hd] at this
      exact this
    · rw [push_out hl] at this ⊢
      simp only [own, useAll_cons, hd] at this
      exact this

theorem State.unptr {p : Tag} (h : State L (Home L root wri(N, self, p, d)) A T P w) :
    State L (Home L root (own self d)) A T P w :=
  h.map fun l st _ hm => by
    unfold Home at hm ⊢
    by_cases hl : 0 ≤ l ∧ l < N
    · rw [push_in hl] at hm
      exact Top.pop hm rfl
    · rw [push_out hl] at hm
      exact hm

theorem run_moveTail {p : Tag} {stop dst : Nat} {mem : Bytes}
    (h : State L (Home L root ptr(N, self, p, d)) A T P w) (hd : useAll d = d)
    (h1 : stop ≤ w.str.len) (h2 : w.str.len ≤ N) (h3 : dst + (w.str.len - stop) ≤ N)
    (hm : (if stop ≠ dst then memCopy w.str.array stop dst (w.str.len - stop) else .ok w.str.array) =
      (.ok mem : Res Error Bytes)) :
    ∃ w' T', moveTail self p stop stop dst w = (.ok (), w') ∧ w'.str = ⟨mem, w.str.size⟩ ∧
      State L (Home L root wri(N, self, p, d)) A T' P w' ∧ Keeps N T T' := by
  unfold moveTail
  by_cases hc : stop = dst
  · rw [if_neg (by simp [hc])] at hm ⊢
    cases hm
    exact ⟨w, T, rfl, rfl, h.relax hd, .refl⟩
  · rw [if_pos hc] at hm ⊢
    obtain ⟨w1, T1, e1, s1, g1, c1⟩ := h.len (ε := Error) stable_ptr
    obtain ⟨w2, e2, s2, g2⟩ := g1.read (ε := Error) (lo := stop) (hi := stop + (w.str.len - stop)) (by omega)
    obtain ⟨w3, e3, s3, g3⟩ := (g2.relax hd).write (ε := Error) (lo := dst)
      (hi := dst + (w.str.len - stop)) hd (by omega)
    have hsub : subUsize w.str.len stop = (.ok (w.str.len - stop) : Res Error Nat) := by
      simp [subUsize, h1]
    refine ⟨{ w3 with str := ⟨mem, w.str.size⟩ }, T1, ?_, rfl, g3.put _, c1⟩
    rw [bind_ok e1, bind_lift hsub, bind_ok (m := get) (a := w1.str) (w' := w1) rfl, s1, bind_lift hm,
      bind_ok e2, bind_ok e3]
    rfl

theorem run_copyText {text p : Tag} {dst : Nat} {str mem : Bytes}
    (h : State L (Home L root wri(N, self, p, d)) A T P w) (hd : useAll d = d)
    (hN : N + 1 + str.length ≤ A.total)
    (ht : Usable A.b T text (N + 1) (N + 1 + str.length)) (h1 : dst + str.length ≤ N)
    (hm : (if ¬ str.isEmpty then memCopyFrom w.str.array str dst str.length else .ok w.str.array) =
      (.ok mem : Res Error Bytes)) :
    ∃ w' T', copyText text p dst str w = (.ok (), w') ∧ w'.str = ⟨mem, w.str.size⟩ ∧
      State L (Home L root wri(N, self, p, d)) A T' P w' ∧ Keeps N T T' := by
  unfold copyText
  by_cases hc : str.isEmpty
  · rw [if_neg (by simp [hc])] at hm ⊢
    cases hm
    exact ⟨w, T, rfl, rfl, h, .refl⟩
  · rw [if_pos hc] at hm ⊢
    obtain ⟨q, w1, T1, e1, s1, g1, c1, d1⟩ := h.run stable_home
      (runs_through (ε := Error) (lo' := N + 1) (hi' := N + 1 + str.length)
        (usable_text ht (by omega)) hN (Nat.le_refl _) (Nat.le_refl _))
    obtain ⟨_, w2, T2, e2, s2, g2, c2, _⟩ := g1.run stable_home
      (runs_read (ε := Error) (usable_text (T := T1) d1.usable (by omega)) hN)
    obtain ⟨w3, e3, s3, g3⟩ := g2.write (ε := Error) (lo := dst) (hi := dst + str.length) hd h1
    refine ⟨{ w3 with str := ⟨mem, w.str.size⟩ }, T2, ?_, rfl, g3.put _, c1.trans c2⟩
    rw [bind_ok e1, bind_ok (m := get) (a := w1.str) (w' := w1) rfl, s1, bind_lift hm, bind_ok e2,
      bind_ok e3]
    rfl

/-- arraystring.rs:875-891, after the checks. -/
theorem sim_tail [ValidCapacity N] {text : Tag} {start stop a b k : Nat} {str : Bytes}
    (h : State L (Home L root (own self d)) A T P w) (hd : useAll d = d)
    (hN : N + 1 + str.length ≤ A.total)
    (ht : Usable A.b T text (N + 1) (N + 1 + str.length)) (hs : Shape w.str)
    (h1 : start ≤ stop) (h2 : stop ≤ w.str.len) (h3 : str.length ≤ N)
    (ha : addUsize w.str.len str.length = (.ok a : Res Error Nat))
    (hb : addUsize a start = (.ok b : Res Error Nat))
    (hk : subUsize b stop = (.ok k : Res Error Nat)) (hk' : k ≤ N) :
    Same L (Home L root (own self d)) A P T
      (do
        let p ← asMutPtr self
        let cutStart ← M.lift (ptrAdd N start)
        let cutEnd ← M.lift (ptrAdd N stop)
        let strEnd ← M.lift (ptrAdd N (cutStart + str.length))
        moveTail self p stop cutEnd strEnd
        copyText text p cutStart str
        let n ← len self
        let a ← M.lift (addUsize n str.length)
        let b ← M.lift (addUsize a start)
        let total ← M.lift (subUsize b stop)
        writeAt self N (N + 1)
        let s ← get
        put ⟨s.array, intoLossy total⟩)
      (do
        let cutStart ← M.lift (ptrAdd N start)
        let cutEnd ← M.lift (ptrAdd N stop)
        let strEnd ← M.lift (ptrAdd N (cutStart + str.length))
        let n ← M.lift (subUsize w.str.len stop)
        let mem ← M.lift (if cutEnd ≠ strEnd then memCopy w.str.array cutEnd strEnd n else .ok w.str.array)
        let mem ← M.lift (if ¬ str.isEmpty then memCopyFrom mem str cutStart str.length else .ok mem)
        let a ← M.lift (addUsize w.str.len str.length)
        let b ← M.lift (addUsize a start)
        let total ← M.lift (subUsize b stop)
        M.setSelf ⟨mem, intoLossy total⟩) w := by
  obtain ⟨hlen, h2'⟩ := hs
  obtain ⟨p, w1, e1, s1, g1⟩ := run_asMutPtr (ε := Error) h
  have hM := usizeMax_ge
  have hC := ValidCapacity.le (N := N)
  have hav := add_ok ha (by omega)
  have hbv := add_ok hb (by omega)
  have hkv' := sub_ok hk (by omega)
  have hp1 : ptrAdd N start = (.ok start : Res Error Nat) := by
    rw [ptrAdd, if_pos (by omega)]
  have hp2 : ptrAdd N stop = (.ok stop : Res Error Nat) := by
    rw [ptrAdd, if_pos (by omega)]
  have hp3 : ptrAdd N (start + str.length) = (.ok (start + str.length) : Res Error Nat) := by
    rw [ptrAdd, if_pos (by omega)]
  have hsub : subUsize w.str.len stop = (.ok (w.str.len - stop) : Res Error Nat) := by
    rw [subUsize, if_pos h2]
  obtain ⟨memA, hA, hAl⟩ : ∃ memA, (if stop ≠ start + str.length then
      memCopy w.str.array stop (start + str.length) (w.str.len - stop) else .ok w.str.array) =
        (.ok memA : Res Error Bytes) ∧ memA.length = N := by
    split
    · obtain ⟨memA, hm⟩ : ∃ memA, memCopy w.str.array stop (start + str.length) (w.str.len - stop) =
          (.ok memA : Res Error Bytes) := by
        rw [memCopy, if_pos (by omega)]; exact ⟨_, rfl⟩
      exact ⟨memA, hm, (copy_length hm).trans hlen⟩
    · exact ⟨_, rfl, hlen⟩
  obtain ⟨memB, hB, hBl⟩ : ∃ memB, (if ¬ str.isEmpty then memCopyFrom memA str start str.length else
      .ok memA) = (.ok memB : Res Error Bytes) ∧ memB.length = N := by
    split
    · obtain ⟨memB, hm⟩ : ∃ memB, memCopyFrom memA str start str.length = (.ok memB : Res Error Bytes) := by
        rw [memCopyFrom, if_pos (by omega)]; exact ⟨_, rfl⟩
      exact ⟨memB, hm, (copyFrom_length hm).trans hAl⟩
    · exact ⟨_, rfl, hAl⟩
  obtain ⟨w2, T2, e2, s2, g2, c2⟩ := run_moveTail (mem := memA) (dst := start + str.length) g1 hd
    (by rw [s1]; exact h2) (by rw [s1]; exact h2') (by rw [s1]; omega) (by rw [s1]; exact hA)
  obtain ⟨w3, T3, e3, s3, g3, c3⟩ := run_copyText (mem := memB) (dst := start) (text := text) (str := str) g2 hd hN
    (c2.usable ht (by omega)) (by omega) (by rw [s2]; exact hB)
  obtain ⟨w4, T4, e4, s4, g4, c4⟩ := g3.unptr.len (ε := Error) stable_own
  obtain ⟨w5, e5, s5, _, g5⟩ := g4.touch (ε := Error) (lo := N) (hi := N + 1) (f := R.write self)
    (φ' := Home L root (own self d)) (by omega)
    (fun l st _ _ hm hb => by
      obtain ⟨st', q1, q2, q3⟩ := Top.write hm hb
      refine ⟨st', q1, ?_, q3⟩
      simp only [own, useAll_cons, hd] at q2
      exact q2) (fun l st _ _ hm => hm)
  have hlen3 : w3.str.len = w.str.len := by rw [s3, s2, s1]; rfl
  have plain : ((do
        let cutStart ← M.lift (ptrAdd N start)
        let cutEnd ← M.lift (ptrAdd N stop)
        let strEnd ← M.lift (ptrAdd N (cutStart + str.length))
        let n ← M.lift (subUsize w.str.len stop)
        let mem ← M.lift (if cutEnd ≠ strEnd then memCopy w.str.array cutEnd strEnd n else .ok w.str.array)
        let mem ← M.lift (if ¬ str.isEmpty then memCopyFrom mem str cutStart str.length else .ok mem)
        let a ← M.lift (addUsize w.str.len str.length)
        let b ← M.lift (addUsize a start)
        let total ← M.lift (subUsize b stop)
        M.setSelf ⟨mem, intoLossy total⟩) : M (ArrayString N) Error Unit) w.str =
      (.ok (), ⟨memB, intoLossy k⟩) := by
    rw [bind_lift hp1, bind_lift hp2, bind_lift hp3, bind_lift hsub, bind_lift hA, bind_lift hB,
      bind_lift ha, bind_lift hb, bind_lift hk]
    rfl
  unfold Same Sim
  rw [plain]
  refine ⟨.ok (), { w5 with str := ⟨memB, intoLossy k⟩ }, T4, ?_, rfl, .ok rfl, fun _ => ⟨g5.put _,
    (c2.trans c3).trans c4, shape_lossy hBl hk'⟩⟩
  rw [bind_ok e1, bind_lift hp1, bind_lift hp2, bind_lift hp3, bind_ok e2, bind_ok e3, bind_ok e4,
    hlen3, bind_lift ha, bind_lift hb, bind_lift hk, writeAt, bind_ok e5,
    bind_ok (m := get) (a := w5.str) (w' := w5) rfl]
  simp only [put, s5, s4, s3]

/-- arraystring.rs:838-892. -/
theorem sim_body [ValidCapacity N] {text : Tag} {r : RangeB} {str : Bytes}
    (h : State L (Home L root (own self d)) A T P w) (hd : useAll d = d)
    (hN : N + 1 + str.length ≤ A.total)
    (ht : Usable A.b T text (N + 1) (N + 1 + str.length)) (hs : Shape w.str) :
    Same L (Home L root (own self d)) A P T (replaceRangeBody self text r str)
      (ArrayString.replaceRange r str) w := by
  unfold replaceRangeBody ArrayString.replaceRange
  refine sim_right (b := w.str) rfl ?_
  obtain ⟨w1, T1, e1, s1, g1, c1⟩ := h.rangeEnd (ε := Error) (r := r) stable_own
  refine sim_left e1 s1 c1 ?_
  rw [← s1] at hs ⊢
  replace ht := c1.usable ht (by omega)
  show Same L _ _ _ _ (ite _ _ _) (ite _ _ _) _
  split
  · exact sim_pure g1 hs rfl
  refine sim_try_bind g1 hs fun _ hi1 => ?_
  obtain ⟨w2, T2, e2, s2, g2, c2⟩ := g1.len (ε := Error) stable_own
  refine sim_left e2 s2 c2 ?_
  rw [← s2] at hs hi1 ⊢
  replace ht := c2.usable ht (by omega)
  refine sim_try_bind g2 hs fun _ hi2 => ?_
  refine sim_try_bind g2 hs fun _ hi3 => ?_
  refine sim_bind (sim_tryBoundary g2 stable_own hs) (fun _ _ _ h => h) ?_
  rintro ⟨⟩ ⟨⟩ w3 T3 e3 g3 k3 - -
  have s3 : w2.str = w3.str := (Prod.mk.inj e3).2
  rw [s3] at hs hi1 hi2 ⊢
  replace ht := k3.usable ht (by omega)
  refine sim_bind (sim_tryBoundary g3 stable_own hs) (fun _ _ _ h => h) ?_
  rintro ⟨⟩ ⟨⟩ w4 T4 e4 g4 k4 - -
  have s4 : w3.str = w4.str := (Prod.mk.inj e4).2
  rw [s4] at hs hi1 hi2 ⊢
  replace ht := k4.usable ht (by omega)
  obtain ⟨w5, T5, e5, s5, g5, c5⟩ := g4.len (ε := Error) stable_own
  refine sim_left e5 s5 c5 ?_
  rw [← s5] at hs hi1 hi2 ⊢
  replace ht := c5.usable ht (by omega)
  refine sim_lift_bind g5 hs fun a ha => ?_
  refine sim_lift_bind g5 hs fun b hb => ?_
  refine sim_lift_bind g5 hs fun k hk => ?_
  refine sim_try_bind g5 hs fun _ hi6 => ?_
  exact sim_tail g5 hd hN ht hs (inside_ok hi1) (inside_ok hi2) (inside_ok hi3) ha hb hk (inside_ok hi6)

theorem sim_replaceRangeOn [ValidCapacity N] {arg : Tag} {r : RangeB} {str : Bytes}
    (h : State L (Home L root (own self d)) A T P w) (hd : useAll d = d)
    (hN : N + 1 + str.length ≤ A.total)
    (ht : Usable A.b T arg (N + 1) (N + 1 + str.length)) (hs : Shape w.str) :
    Same L (Home L root (own self d)) A P T (replaceRangeOn self arg r str)
      (ArrayString.replaceRange r str) w := by
  refine sim_passText h ht (by omega) hN fun text w1 T1 P1 s1 g1 k1 c1 => ?_
  obtain ⟨t2, w2, T2, e2, s2, g2, k2, c2⟩ := g1.run stable_home
    (runs_through (ε := Error) (lo' := N + 1) (hi' := N + 1 + str.length)
      (usable_text c1.usable (by omega)) hN (Nat.le_refl _) (Nat.le_refl _))
  obtain ⟨t3, w3, T3, e3, s3, g3, k3, c3⟩ := g2.run stable_home
    (runs_through (ε := Error) (lo' := N + 1) (hi' := N + 1 + str.length)
      (usable_text c2.usable (by omega)) hN (Nat.le_refl _) (Nat.le_refl _))
  refine sim_left e2 s2 k2 (sim_left e3 s3 k3 ?_)
  exact sim_body g3 hd hN c3.usable (by rw [s3, s2, s1]; exact hs)

end

/-! ## The caller -/

/-- The text argument, as the caller has it. -/
def argText (R : Rules) {N : Nat} (arg : Tag) (total : Nat) (h : N < total) : Text R N :=
  ⟨fun _ => arg, fun _ st => (R.read arg st).isSome, total, h⟩

/-- The caller may write through `caller` to the string, and read through `arg` the `total - (N + 1)` bytes of
the text. -/
def Ready (L : Laws R) (caller arg : Tag) (total : Nat) (w : World R N) : Prop :=
  (∀ l, l ≤ N → (R.write caller (w.mem l)).isSome ∧ L.Below w.next (w.mem l)) ∧
  ∀ l, N < l → l < total → (R.read arg (w.mem l)).isSome ∧ L.Below w.next (w.mem l)

section
variable {arg caller : Tag} {total : Nat}

theorem Ready.state (h : Ready L caller arg total w) (hN : N < total) :
    State L (Home L caller fun _ => []) (argText R arg total hN) (fun _ => []) (fun _ => []) w :=
  ⟨h.1, fun l h1 h2 => ⟨L.side_start L.stable_read (h.2 l h1 h2).1, (h.2 l h1 h2).2⟩⟩

theorem State.ready {hN : N < total}
    (h : State L (Home L caller fun _ => []) (argText R arg total hN) T (fun _ => []) w) :
    Ready L caller arg total w :=
  ⟨h.1, fun l h1 h2 => ⟨L.side_end (h.2 l h1 h2).1, (h.2 l h1 h2).2⟩⟩

/-- What a simulation means to the caller. -/
theorem Ready.of_sim {m : M (World R N) ε α} {m₀ : M (ArrayString N) ε α} {hN : N < total}
    (h : Same L (Home L caller fun _ => []) (argText R arg total hN) (fun _ => []) T m m₀ w) :
    ∃ w', m w = ((m₀ w.str).1, w') ∧ w'.str = (m₀ w.str).2 ∧
      (Settled (m₀ w.str).1 → Ready L caller arg total w' ∧ Shape w'.str) := by
  obtain ⟨r, w', T', h1, h2, h3, h4⟩ := h
  refine ⟨w', by rw [h1, Match.eq h3], h2, fun hr => ⟨(h4 hr).1.ready, ?_⟩⟩
  rw [h2]
  exact (h4 hr).2.2

theorem run_replaceRange [ValidCapacity N] {r : RangeB} {str : Bytes}
    (h : Ready L caller arg total w) (hN : N + 1 + str.length ≤ total) (hs : Shape w.str) :
    ∃ w', replaceRange caller arg r str w = ((ArrayString.replaceRange r str w.str).1, w') ∧
      w'.str = (ArrayString.replaceRange r str w.str).2 ∧
      (Settled (ArrayString.replaceRange r str w.str).1 → Ready L caller arg total w' ∧ Shape w'.str) := by
  have := h.state (by omega)
  refine Ready.of_sim (T := fun _ => []) (hN := by omega)
    (sim_passAll (c := []) (t := caller) this rfl fun u w' hs' g => ?_)
  exact sim_replaceRangeOn g rfl hN (fun _ _ _ => .inl rfl) (by rw [hs']; exact hs)

/-! ## `as_mut` -/

/-- On top of `c`, a `&mut` to the bytes `lo .. hi`, tagged `t`. -/
def Slice (L : Laws R) (root : Tag) (c : List Ref) (t : Tag) (lo hi : Nat) : Nat → R.St → Prop :=
  fun l => if lo ≤ l ∧ l < hi then L.Main root (⟨t, .new, false⟩ :: c) else L.Main root c

section slice
variable {root self t : Tag} {c : List Ref} {r : Ref} {lo hi lo' hi' : Nat}

theorem slice_in {l : Nat} (h : lo ≤ l ∧ l < hi) :
    Slice L root c t lo hi l = L.Main root (⟨t, .new, false⟩ :: c) := if_pos h

theorem slice_out {l : Nat} (h : ¬ (lo ≤ l ∧ l < hi)) : Slice L root c t lo hi l = L.Main root c := if_neg h

theorem stable_slice : ∀ l, l ≤ N →
    L.Stable (if lo ≤ l ∧ l < hi then t else r.tag) (Slice L root (r :: c) t lo hi l) := by
  intro l _
  unfold Slice
  split
  · exact L.stable_main (r := ⟨t, .new, false⟩)
  · exact L.stable_main (r := r)

/-- Forget the reference below. -/
theorem State.hide {t' : Tag} {k : Kind} (h : State L (Slice L root (⟨t', k, false⟩ :: r :: c) t lo hi) A T P w)
    (hk : k ≠ .used) : State L (Slice L root (r :: c) t lo hi) A T P w :=
  h.map fun l st _ hm => by
    by_cases hl : lo ≤ l ∧ l < hi
    · rw [slice_in hl] at hm ⊢; exact L.main_hide hm hk
    · rw [slice_out hl] at hm ⊢; exact L.main_pop hm rfl

/-- Retag the reference.  Nothing outside knows the new one. -/
theorem State.reslice (h : State L (Slice L root c t lo hi) A T P w) (hhi : hi ≤ N + 1) :
    ∃ v w', (retagUnique t lo hi false : M (World R N) ε Tag) w = (.ok v, w') ∧ w'.str = w.str ∧
      State L (fun l st => L.Main root
        (if lo ≤ l ∧ l < hi then ⟨v, .new, false⟩ :: ⟨t, .new, false⟩ :: c else c) st) A T P w' ∧
      ∀ l, l ≤ N → ¬ (lo ≤ l ∧ l < hi) → L.Below v (w'.mem l) := by
  have h0 : State L (fun l st => Slice L root c t lo hi l st ∧ L.Below w.next st) A T P w :=
    ⟨fun l hl => ⟨h.1 l hl, (h.1 l hl).2⟩, h.2⟩
  obtain ⟨w1, e1, s1, g1⟩ := h0.unique (ε := ε) (lo := lo) (hi := hi) (t := t) (p := false)
    (φ' := fun l st => L.Main root
        (if lo ≤ l ∧ l < hi then ⟨w.next, .new, false⟩ :: ⟨t, .new, false⟩ :: c else c) st ∧
      (¬ (lo ≤ l ∧ l < hi) → L.Below w.next st)) hhi
    (fun l st h1 h2 hm hb => by
      rw [slice_in ⟨h1, h2⟩] at hm
      obtain ⟨st', q1, q2, q3⟩ := L.main_unique false hm.1 hb
      exact ⟨st', q1, ⟨by rw [if_pos ⟨h1, h2⟩]; exact q2, fun h => absurd ⟨h1, h2⟩ h⟩, q3⟩)
    (fun l st _ hl hm => by
      rw [slice_out hl] at hm
      exact ⟨by rw [if_neg hl]; exact hm.1, fun _ => hm.2⟩)
  exact ⟨w.next, w1, e1, s1, g1.map fun _ _ _ h => h.1, fun l hl h => (g1.1 l hl).1.2 h⟩

/-- The same, when there is something below. -/
theorem State.again (h : State L (Slice L root (r :: c) t lo hi) A T P w) (hhi : hi ≤ N + 1) :
    ∃ v w', (retagUnique t lo hi false : M (World R N) ε Tag) w = (.ok v, w') ∧ w'.str = w.str ∧
      State L (Slice L root (r :: c) v lo hi) A T P w' ∧
      ∀ l, l ≤ N → ¬ (lo ≤ l ∧ l < hi) → L.Below v (w'.mem l) := by
  obtain ⟨v, w', e, s, g, k⟩ := h.reslice (ε := ε) hhi
  refine ⟨v, w', e, s, g.map fun l st _ hm => ?_, k⟩
  by_cases hl : lo ≤ l ∧ l < hi
  · rw [if_pos hl] at hm; rw [slice_in hl]; exact L.main_hide hm (by simp)
  · rw [if_neg hl] at hm; rw [slice_out hl]; exact hm

/-- The end of the call that the reference below belongs to. -/
theorem State.leave (h : State L (Slice L root (⟨self, .new, true⟩ :: c) t lo hi) A T P w) :
    ∃ w', (Borrow.release self 0 (N + 1) : M (World R N) ε Unit) w = (.ok (), w') ∧ w'.str = w.str ∧
      State L (Slice L root (⟨self, .new, false⟩ :: c) t lo hi) A T P w' := by
  obtain ⟨w1, e1, s1, _, g1⟩ := h.touch (ε := ε) (lo := 0) (hi := N + 1) (f := R.release self)
    (φ' := Slice L root (⟨self, .new, false⟩ :: c) t lo hi) (by omega)
    (fun l st _ _ hm hb => by
      by_cases hl : lo ≤ l ∧ l < hi
      · rw [slice_in hl] at hm ⊢; exact L.main_release_under hm hb
      · rw [slice_out hl] at hm ⊢; exact L.main_release_new hm hb)
    (fun l st _ _ => by omega)
  exact ⟨w1, e1, s1, g1⟩

theorem State.throughMut (h : State L (Slice L root (r :: c) t lo hi) A T P w)
    (h1 : lo ≤ lo') (h2 : hi' ≤ hi) (h3 : hi ≤ N + 1) :
    ∃ v w', (Borrow.throughMut t lo hi lo' hi' : M (World R N) ε Tag) w = (.ok v, w') ∧ w'.str = w.str ∧
      State L (Slice L root (r :: c) v lo' hi') A T P w' := by
  have sub : ∀ {l}, lo' ≤ l ∧ l < hi' → lo ≤ l ∧ l < hi := fun h => ⟨by omega, by omega⟩
  obtain ⟨w1, e1, s1, g1⟩ := h.unique (ε := ε) (lo := lo) (hi := hi) (t := t) (p := true)
    (φ' := fun l => if lo ≤ l ∧ l < hi then
        L.Main root (⟨w.next, .new, true⟩ :: ⟨t, .new, false⟩ :: r :: c)
      else L.Main root (r :: c)) h3
    (fun l st k1 k2 hm hb => by
      rw [slice_in ⟨k1, k2⟩] at hm; rw [if_pos ⟨k1, k2⟩]; exact L.main_unique true hm hb)
    (fun l st _ hl hm => by rw [slice_out hl] at hm; rw [if_neg hl]; exact hm)
  obtain ⟨w2, e2, s2, g2⟩ := g1.unique (ε := ε) (lo := lo') (hi := hi') (t := w.next) (p := false)
    (φ' := fun l => if lo' ≤ l ∧ l < hi' then
        L.Main root (⟨w1.next, .new, false⟩ :: ⟨w.next, .new, true⟩ :: ⟨t, .new, false⟩ :: r :: c)
      else if lo ≤ l ∧ l < hi then L.Main root (⟨w.next, .new, true⟩ :: ⟨t, .new, false⟩ :: r :: c)
      else L.Main root (r :: c)) (by omega)
    (fun l st k1 k2 hm hb => by
      rw [if_pos (sub ⟨k1, k2⟩)] at hm; rw [if_pos ⟨k1, k2⟩]; exact L.main_unique false hm hb)
    (fun l st _ hl hm => by rw [if_neg hl]; exact hm)
  obtain ⟨w3, e3, s3, _, g3⟩ := g2.touch (ε := ε) (lo := lo) (hi := hi) (f := R.release w.next)
    (φ' := Slice L root (r :: c) w1.next lo' hi') h3
    (fun l st k1 k2 hm hb => by
      by_cases hn : lo' ≤ l ∧ l < hi'
      · rw [if_pos hn] at hm; rw [slice_in hn]
        obtain ⟨st', q1, q2, q3⟩ := L.main_release_under hm hb
        exact ⟨st', q1, L.main_hide (L.main_hide q2 (by simp)) (by simp), q3⟩
      · rw [if_neg hn, if_pos ⟨k1, k2⟩] at hm; rw [slice_out hn]
        obtain ⟨st', q1, q2, q3⟩ := L.main_release_new hm hb
        exact ⟨st', q1, L.main_pop (L.main_pop q2 rfl) rfl, q3⟩)
    (fun l st _ hl hm => by
      have hn : ¬ (lo' ≤ l ∧ l < hi') := fun h => hl (sub h)
      rw [if_neg hn, if_neg hl] at hm; rw [slice_out hn]; exact hm)
  obtain ⟨v, w4, e4, s4, g4, _⟩ := g3.again (ε := ε) (by omega)
  refine ⟨v, w4, ?_, s4.trans (s3.trans (s2.trans s1)), g4⟩
  unfold Borrow.throughMut
  rw [bind_ok e1, bind_ok e2, Borrow.release, bind_ok e3, e4]

theorem State.throughRaw (h : State L (Slice L root (r :: c) t lo hi) A T P w)
    (h1 : lo ≤ lo') (h2 : hi' ≤ hi) (h3 : hi ≤ N + 1) :
    ∃ v w', (Borrow.throughRaw t lo hi lo' hi' : M (World R N) ε Tag) w = (.ok v, w') ∧ w'.str = w.str ∧
      State L (Slice L root (r :: c) v lo' hi') A T P w' := by
  have sub : ∀ {l}, lo' ≤ l ∧ l < hi' → lo ≤ l ∧ l < hi := fun h => ⟨by omega, by omega⟩
  obtain ⟨w1, e1, s1, g1⟩ := h.unique (ε := ε) (lo := lo) (hi := hi) (t := t) (p := true)
    (φ' := fun l => if lo ≤ l ∧ l < hi then
        L.Main root (⟨w.next, .new, true⟩ :: ⟨t, .new, false⟩ :: r :: c)
      else L.Main root (r :: c)) h3
    (fun l st k1 k2 hm hb => by
      rw [slice_in ⟨k1, k2⟩] at hm; rw [if_pos ⟨k1, k2⟩]; exact L.main_unique true hm hb)
    (fun l st _ hl hm => by rw [slice_out hl] at hm; rw [if_neg hl]; exact hm)
  -- the cast to a raw pointer
  obtain ⟨mem2, e2, g2⟩ := touch_run (ε := ε) (w := { w1 with next := w1.next + 1 }) (lo := lo)
    (hi := hi) (f := R.rawMut w.next w1.next)
    (Q := fun l st => (lo ≤ l ∧ l < hi → L.Below (w1.next + 1) st ∧
      (∃ st₂, R.release w.next st = some st₂ ∧
        L.Main root (⟨t, .new, false⟩ :: r :: c) st₂ ∧ L.Below (w1.next + 1) st₂) ∧
      ∃ st₂ st₃, R.unique (R.rawTag w.next w1.next) (w1.next + 1) false st = some st₂ ∧
        L.Below (w1.next + 2) st₂ ∧ R.release w.next st₂ = some st₃ ∧
        L.Main root (⟨w1.next + 1, .new, false⟩ :: ⟨t, .new, false⟩ :: r :: c) st₃ ∧
        L.Below (w1.next + 2) st₃) ∧ (¬ (lo ≤ l ∧ l < hi) → st = w1.mem l))
    (fun l k1 k2 => by
      obtain ⟨hm, hb⟩ := g1.1 l (by omega)
      rw [if_pos ⟨k1, k2⟩] at hm
      obtain ⟨st', q1, q2⟩ := L.main_raw_unique hm hb
      exact ⟨st', q1, fun _ => q2, fun hl' => absurd ⟨k1, k2⟩ hl'⟩)
    (fun l hl => ⟨fun hl' => absurd hl' hl, fun _ => rfl⟩)
  -- the new reference
  obtain ⟨mem3, e3, g3⟩ := touch_run (ε := ε)
    (w := { str := w1.str, mem := mem2, next := w1.next + 1 + 1 }) (lo := lo') (hi := hi')
    (f := R.unique (R.rawTag w.next w1.next) (w1.next + 1) false)
    (Q := fun l st => (lo ≤ l ∧ l < hi → ∃ st', R.release w.next st = some st' ∧
        Slice L root (r :: c) (w1.next + 1) lo' hi' l st' ∧
        L.Below (w1.next + 2) st') ∧ (¬ (lo ≤ l ∧ l < hi) → st = w1.mem l))
    (fun l k1 k2 => by
      have hs := sub ⟨k1, k2⟩
      obtain ⟨_, _, st2, st3, q1, q2, q3, q4, q5⟩ := (g2 l).1 hs
      refine ⟨st2, q1, fun _ => ⟨st3, q3, ?_, q5⟩, fun h => absurd hs h⟩
      rw [slice_in ⟨k1, k2⟩]
      exact L.main_hide q4 (by simp))
    (fun l hl => ⟨fun hn => by
      obtain ⟨_, ⟨st2, q1, q2, q3⟩, _⟩ := (g2 l).1 hn
      refine ⟨st2, q1, ?_, L.below_mono q3 (Nat.le_succ _)⟩
      rw [slice_out hl]
      exact L.main_pop q2 rfl, (g2 l).2⟩)
  -- the return
  obtain ⟨mem4, e4, g4⟩ := touch_run (ε := ε)
    (w := { str := w1.str, mem := mem3, next := w1.next + 1 + 1 }) (lo := lo) (hi := hi)
    (f := R.release w.next)
    (Q := fun l st => (lo ≤ l ∧ l < hi → Slice L root (r :: c) (w1.next + 1) lo' hi' l st ∧
        L.Below (w1.next + 2) st) ∧ (¬ (lo ≤ l ∧ l < hi) → st = w1.mem l))
    (fun l k1 k2 => by
      obtain ⟨st', q1, q2⟩ := (g3 l).1 ⟨k1, k2⟩
      exact ⟨st', q1, fun _ => q2, fun hl' => absurd ⟨k1, k2⟩ hl'⟩)
    (fun l hl => ⟨fun hl' => absurd hl' hl, (g3 l).2⟩)
  have g5 : State L (Slice L root (r :: c) (w1.next + 1) lo' hi') A T P
      { str := w1.str, mem := mem4, next := w1.next + 1 + 1 } := by
    refine ⟨fun l hl => ?_, fun l hl hl' => ?_⟩
    · by_cases hn : lo ≤ l ∧ l < hi
      · exact (g4 l).1 hn
      · obtain ⟨hm, hb⟩ := g1.1 l hl
        simp only [(g4 l).2 hn]
        rw [if_neg hn] at hm
        refine ⟨?_, L.below_mono hb (Nat.le_add_right _ 2)⟩
        rw [slice_out fun h => hn (sub h)]
        exact hm
    · simp only [(g4 l).2 (show ¬ (lo ≤ l ∧ l < hi) by omega)]
      exact ⟨(g1.2 l hl hl').1, L.below_mono (g1.2 l hl hl').2 (Nat.le_add_right _ 2)⟩
  obtain ⟨v, w6, e6, s6, g6, _⟩ := g5.again (ε := ε) (by omega)
  refine ⟨v, w6, ?_, s6.trans s1, g6⟩
  unfold retagUnique at e6 e1
  unfold Borrow.throughRaw retagUnique
  rw [bind_ok e1, bind_ok (m := Borrow.fresh) (w := w1) (a := w1.next) (w' := { w1 with next := w1.next + 1 }) rfl,
    bind_ok e2]
  have : (do
      let u ← Borrow.fresh
      Borrow.touch lo' hi' (R.unique (R.rawTag w.next w1.next) u false)
      pure u : M (World R N) ε Tag) { str := w1.str, mem := mem2, next := w1.next + 1 } =
      (.ok (w1.next + 1), { str := w1.str, mem := mem3, next := w1.next + 1 + 1 }) := by
    rw [bind_ok (m := Borrow.fresh) (a := w1.next + 1) (w' := { str := w1.str, mem := mem2, next := w1.next + 1 + 1 }) rfl,
      bind_ok e3]
    rfl
  rw [bind_ok this, Borrow.release, bind_ok e4, e6]

/-- The body of `as_mut`. -/
theorem State.asMutOn (h : State L (fun _ => L.Main root (⟨self, .new, true⟩ :: c)) A T P w)
    (hl : w.str.len ≤ N) :
    ∃ u w' T', (Borrow.asMutOn self : M (World R N) ε (Tag × Nat)) w = (.ok (u, w.str.len), w') ∧
      w'.str = w.str ∧ State L (Slice L root (⟨self, .new, true⟩ :: c) u 0 w.str.len) A T' P w' ∧
      Keeps N T T' := by
  have hA := A.lt
  obtain ⟨w2, T2, e2, s2, g2, k2⟩ := h.len (ε := ε) (self := self)
    (fun _ _ => L.stable_main (r := ⟨self, .new, true⟩))
  obtain ⟨w3, e3, s3, g3⟩ := g2.unique (ε := ε) (lo := 0) (hi := N) (t := self) (p := false)
    (φ' := Slice L root (⟨self, .new, true⟩ :: c) w2.next 0 N) (by omega)
    (fun l st k1 k2 hm hb => by rw [slice_in ⟨k1, k2⟩]; exact L.main_unique false hm hb)
    (fun l st _ hl hm => by rw [slice_out hl]; exact hm)
  obtain ⟨a4, w4, e4, s4, g4⟩ := g3.throughMut (ε := ε) (lo' := 0) (hi' := N) (Nat.le_refl _) (Nat.le_refl _) (by omega)
  obtain ⟨a5, w5, e5, s5, g5⟩ := g4.throughRaw (ε := ε) (lo' := 0) (hi' := w.str.len) (Nat.le_refl _) hl (by omega)
  obtain ⟨t6, w6, T6, e6, s6, g6, k6, _⟩ := g5.run (b := fun l => if 0 ≤ l ∧ l < w.str.len then a5 else self)
    (stable_slice (r := ⟨self, .new, true⟩))
    (m := do
      let t ← retagShared a5 0 w.str.len false
      passShared t 0 w.str.len fun t => readAt t 0 w.str.len)
    (runs_bind (Q' := fun _ _ => True) (runs_shared (ε := ε)
      (fun l h1 h2 => .inl (by
        simp only [bases, if_pos (show l ≤ N by omega), if_pos (And.intro h1 h2)])) (show w.str.len ≤ A.total by omega))
      fun t _ _ hc => runs_pass hc.usable (show w.str.len ≤ A.total by omega) fun _ _ _ _ hc' =>
        runs_read hc'.usable (show w.str.len ≤ A.total by omega))
  obtain ⟨a7, w7, e7, s7, g7⟩ := g6.throughRaw (ε := ε) (lo' := 0) (hi' := w.str.len)
    (Nat.le_refl _) (Nat.le_refl _) (by omega)
  refine ⟨a7, w7, T6, ?_, by rw [s7, s6, s5, s4, s3, s2], g7, k2.trans k6⟩
  unfold Borrow.asMutOn
  have e6' : ∀ {β : Type} (f : Unit → M (World R N) ε β), (retagShared a5 0 w.str.len false >>= fun t =>
      passShared t 0 w.str.len (fun t => readAt t 0 w.str.len) >>= f) w5 = f () w6 := by
    intro β f
    have := bind_ok (f := f) e6
    rw [← this]
    show M.bind _ _ w5 = M.bind (M.bind _ _) _ w5
    simp only [M.bind]
    generalize retagShared a5 0 w.str.len false w5 = q
    obtain ⟨q, w'⟩ := q
    cases q <;> rfl
  rw [bind_ok e2, bind_ok e3, bind_ok e4, bind_ok e5, e6', bind_ok e7]
  rfl

/-- A call that gives back a `&mut` to the first `n` bytes. -/
theorem State.passRef {φ : Nat → R.St → Prop} {body : Tag → M (World R N) ε (Tag × Nat)} {n : Nat}
    (h : State L φ A T P w) (hn : n ≤ N)
    (he : ∀ l st, l ≤ N → φ l st → L.Below w.next st →
      ∃ st', R.unique t w.next true st = some st' ∧ L.Main root (⟨w.next, .new, true⟩ :: c) st' ∧
        L.Below (w.next + 1) st')
    (hb : ∀ u w1, w1.str = w.str → State L (fun _ => L.Main root (⟨u, .new, true⟩ :: c)) A T P w1 →
      ∃ v w2 T2, body u w1 = (.ok (v, n), w2) ∧ w2.str = w1.str ∧
        State L (Slice L root (⟨u, .new, true⟩ :: c) v 0 n) A T2 P w2 ∧ Keeps N T T2) :
    ∃ v u w' T', Borrow.passRef t body w = (.ok (v, n), w') ∧ w'.str = w.str ∧
      State L (Slice L root (⟨u, .new, false⟩ :: c) v 0 n) A T' P w' ∧ Keeps N T T' ∧
      ∀ l, l ≤ N → n ≤ l → L.Below v (w'.mem l) := by
  obtain ⟨w1, e1, s1, g1⟩ := h.unique (ε := ε) (lo := 0) (hi := N + 1) (t := t) (p := true)
    (φ' := fun _ => L.Main root (⟨w.next, .new, true⟩ :: c)) (by omega)
    (fun l st _ hl hm hb => he l st (by omega) hm hb) (fun l st _ _ => by omega)
  obtain ⟨v, w2, T2, e2, s2, g2, k2⟩ := hb w.next w1 s1 g1
  obtain ⟨w3, e3, s3, g3⟩ := g2.leave (ε := Empty)
  obtain ⟨v', w4, e4, s4, g4, k4⟩ := g3.again (ε := ε) (by omega)
  refine ⟨v', w.next, w4, T2, ?_, by rw [s4, s3, s2, s1], g4, k2, fun l hl hn => k4 l hl (by omega)⟩
  have : passUnique t 0 (N + 1) body w = (.ok (v, n), w3) := by
    unfold passUnique
    rw [bind_ok e1, protecting_run e2 settled_ok e3]
  unfold Borrow.passRef
  rw [bind_ok this]
  dsimp only
  rw [bind_ok e4]
  rfl

end slice

theorem run_asMut (h : Ready L caller arg total w) (hN : N < total)
    (hl : w.str.len ≤ N) :
    ∃ u self w' T', (asMut caller : M (World R N) ε (Tag × Nat)) w = (.ok (u, w.str.len), w') ∧
      w'.str = w.str ∧ State L (Slice L caller [⟨self, .new, false⟩] u 0 w.str.len)
        (argText R arg total hN) T' (fun _ => []) w' ∧
      ∀ l, w.str.len ≤ l → l ≤ N → L.Below u (w'.mem l) := by
  obtain ⟨v, u, w', T', e, s, g, _, k⟩ := (h.state hN).passRef (root := caller) (c := []) (t := caller)
    (body := asMutOn) (ε := ε) hl
    (fun l st _ hm hb => L.main_enter true hm hb)
    (fun u w1 s1 g1 => by
      obtain ⟨v, w2, T2, e2, s2, g2, k2⟩ := g1.asMutOn (ε := ε) (by rw [s1]; exact hl)
      rw [s1] at e2 g2
      exact ⟨v, w2, T2, e2, s2, g2, k2⟩)
  exact ⟨v, u, w', T', e, s, g, fun l h1 h2 => k l h2 h1⟩

variable {root self : Tag}

/-- The `&mut` after some use. -/
def Using (L : Laws R) (root self t : Tag) (lo hi : Nat) (q : List Ref := []) : Nat → R.St → Prop :=
  fun l => if lo ≤ l ∧ l < hi then L.Main root (⟨t, .used, false⟩ :: ⟨self, .used, false⟩ :: q)
    else L.Main root (⟨self, .used, false⟩ :: q)

theorem State.using {t : Tag} {k : Kind} {lo hi : Nat} {q : List Ref}
    (h : State L (Slice L root (⟨self, k, false⟩ :: q) t lo hi) A T P w) (hq : useAll q = q := by rfl) :
    State L (Using L root self t lo hi q) A T P w :=
  h.map fun l st _ hm => by
    unfold Slice at hm; unfold Using
    have e : q = q.map Ref.use := hq.symm
    by_cases hn : lo ≤ l ∧ l < hi
    · simp only [if_pos hn] at hm ⊢; rw [e]; exact L.main_relax hm
    · simp only [if_neg hn] at hm ⊢; rw [e]; exact L.main_relax hm

theorem Using.read {t : Tag} {x y lo hi : Nat} {q : List Ref} (h : State L (Using L root self t x y q) A T P w)
    (h0 : x ≤ lo) (h1 : hi ≤ y) (h2 : y ≤ N) :
    ∃ w', (readAt t lo hi : M (World R N) ε Unit) w = (.ok (), w') ∧ w'.str = w.str ∧
      State L (Using L root self t x y q) A T P w' := by
  obtain ⟨w', e1, s1, _, g1⟩ := h.touch (ε := ε) (lo := lo) (hi := hi) (f := R.read t)
    (φ' := Using L root self t x y q) (by omega)
    (fun l st _ hl hm hb => by
      simp only [Using, if_pos (show x ≤ l ∧ l < y by omega)] at hm ⊢; exact L.main_read hm hb)
    (fun l st _ _ hm => hm)
  exact ⟨w', e1, s1, g1⟩

theorem Using.write {t : Tag} {x y lo hi : Nat} {q : List Ref} (h : State L (Using L root self t x y q) A T P w)
    (h0 : x ≤ lo) (h1 : hi ≤ y) (h2 : y ≤ N) (hq : useAll q = q := by rfl) :
    ∃ w', (writeAt t lo hi : M (World R N) ε Unit) w = (.ok (), w') ∧ w'.str = w.str ∧
      State L (Using L root self t x y q) A T P w' := by
  obtain ⟨w', e1, s1, _, g1⟩ := h.touch (ε := ε) (lo := lo) (hi := hi) (f := R.write t)
    (φ' := Using L root self t x y q) (by omega)
    (fun l st _ hl hm hb => by
      simp only [Using, if_pos (show x ≤ l ∧ l < y by omega)] at hm ⊢
      obtain ⟨st', k1, k2, k3⟩ := L.main_write hm hb
      rw [List.map_cons, List.map_cons, show q.map Ref.use = q from hq] at k2
      exact ⟨st', k1, k2, k3⟩)
    (fun l st _ _ hm => hm)
  exact ⟨w', e1, s1, g1⟩

theorem Using.ready {t : Tag} {lo hi : Nat} {hN : N < total}
    (h : State L (Using L caller self t lo hi) (argText R arg total hN) T (fun _ => []) w) :
    Ready L caller arg total w :=
  State.ready (T := T) (h.map fun l st _ hm => by
    unfold Using at hm
    by_cases hn : lo ≤ l ∧ l < hi
    · simp only [if_pos hn] at hm; exact L.main_root (L.main_pop hm rfl) rfl
    · simp only [if_neg hn] at hm; exact L.main_root hm rfl)

/-- The bytes that a list of accesses leaves. -/
def stored (mem : Bytes) : List Access → Bytes
  | [] => mem
  | .load _ :: as => stored mem as
  | .store i b :: as => stored (mem.set i b) as

theorem run_accesses {t : Tag} {n : Nat} {as : List Access}
    (h : State L (Using L root self t 0 n) A T P w) (h2 : n ≤ N) (has : ∀ a ∈ as, a.pos < n) :
    ∃ w', (runAccesses t as : M (World R N) ε Unit) w = (.ok (), w') ∧
      w'.str = ⟨stored w.str.array as, w.str.size⟩ ∧ State L (Using L root self t 0 n) A T P w' := by
  induction as generalizing w with
  | nil => exact ⟨w, rfl, rfl, h⟩
  | cons a as ih =>
    have ha := has a List.mem_cons_self
    unfold runAccesses
    cases a with
    | load i =>
      obtain ⟨w1, e1, s1, g1⟩ := Using.read (ε := ε) (lo := i) (hi := i + 1) h (Nat.zero_le _) ha h2
      obtain ⟨w2, e2, s2, g2⟩ := ih g1 (fun a h => has a (List.mem_cons_of_mem _ h))
      exact ⟨w2, by rw [bind_ok (m := Access.run t (.load i)) e1, e2], by rw [s2, s1]; rfl, g2⟩
    | store i b =>
      obtain ⟨w1, e1, s1, g1⟩ := Using.write (ε := ε) (lo := i) (hi := i + 1) h (Nat.zero_le _) ha h2
      obtain ⟨w2, e2, s2, g2⟩ := ih (g1.put ⟨w1.str.array.set i b, w1.str.size⟩)
        (fun a h => has a (List.mem_cons_of_mem _ h))
      refine ⟨w2, ?_, by rw [s2]; simp only [s1]; rfl, g2⟩
      have : (Access.run t (.store i b) : M (World R N) ε Unit) w =
          (.ok (), { w1 with str := ⟨w1.str.array.set i b, w1.str.size⟩ }) :=
        bind_ok e1
      rw [bind_ok this, e2]

/-! ## `as_str` -/

theorem run_look (h : Ready L caller arg total w) (hN : N < total) (hs : Shape w.str) :
    ∃ w', (look caller : M (World R N) ε Nat) w = (.ok w.str.len, w') ∧ w'.str = w.str ∧
      Ready L caller arg total w' := by
  obtain ⟨w1, T1, e1, s1, g1, _⟩ := (h.state hN).look (ε := ε) (fun _ _ => L.stable_root) hs
  exact ⟨w1, e1, s1, g1.ready⟩

end

end

end Verif.Borrow
