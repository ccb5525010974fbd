import Verif.Proofs.BorrowRun
import Verif.Proofs.Utf8

/-!
# The `&mut self` methods follow the plain ones

For every method of `Model/BorrowCalls`: started where its references may be used, it does what the plain
method does, and leaves the references usable.
-/

namespace Verif.Borrow

variable {R : Rules} {L : Laws R} {N : Nat} {ε ε' α β γ δ : Type}
variable {φ φ' : Nat → R.St → Prop} {A : Text R N} {T P : Nat → List Tag} {w : World R N}
variable {root self arg : Tag} {c : Nat → List Ref} {d : List Ref}

/-! ## More rules -/

theorem bind_assoc' {σ : Type} {m : M σ ε α} {f : α → M σ ε β} {g : β → M σ ε γ} :
    ((m >>= f) >>= g) = (m >>= fun a => f a >>= g) := by
  funext s
  show M.bind (M.bind m f) g s = M.bind m (fun a => M.bind (f a) g) s
  simp only [M.bind]
  generalize m s = p
  obtain ⟨r, s'⟩ := p
  cases r <;> rfl

theorem bind_attempt {σ : Type} {m : M σ ε α} {f : Except ε α → M σ ε' β} {w w' : σ}
    {r : Res ε α} (h : m w = (r, w')) : (M.attempt m >>= f) w =
      match r with
      | .ok a => f (.ok a) w'
      | .err e => f (.error e) w'
      | .panic => (.panic, w')
      | .ub => (.ub, w')
      | .diverge => (.diverge, w') := by
  show M.bind (M.attempt m) f w = _
  simp only [M.bind, M.attempt, h]
  cases r <;> rfl

theorem use_own (hd : useAll d = d) : useAll (⟨self, .used, true⟩ :: d) = ⟨self, .used, true⟩ :: d := by
  rw [useAll_cons, hd]; rfl

theorem use_call {t : Tag} (hd : useAll d = d) :
    useAll (⟨t, .used, false⟩ :: ⟨self, .used, true⟩ :: d) = ⟨t, .used, false⟩ :: ⟨self, .used, true⟩ :: d := by
  rw [useAll_cons, use_own hd]; rfl

/-- `self.method(..)` inside a method. -/
theorem sim_callOwn {body : Tag → M (World R N) ε α} {m₀ : M (ArrayString N) ε β}
    {Q : α → β → (Nat → List Tag) → Prop}
    (h : State L (Home L root (own self d)) A T P w) (hd : useAll d = d)
    (hb : ∀ d' u w', useAll d' = d' → w'.str = w.str → State L (Home L root (own u d')) A T P w' →
      Sim L (Home L root (own u d')) A P T (body u) m₀ w' Q) :
    Sim L (Home L root (own self d)) A P T (callMut self body) m₀ w Q :=
  sim_callMut (c := ⟨self, .used, true⟩ :: d) h rfl (use_own hd)
    fun _ u w' hs g => hb _ u w' (use_call hd) hs g

/-- The state while a two-phase borrow waits for the arguments. -/
abbrev waiting (t self : Tag) (d : List Ref) : Nat → List Ref :=
  fun _ => ⟨t, .raw, false⟩ :: ⟨self, .used, true⟩ :: d

theorem State.twoOwn (h : State L (Home L root (own self d)) A T P w) :
    ∃ t w', (retagTwoPhase self : M (World R N) ε Tag) w = (.ok t, w') ∧ w'.str = w.str ∧
      State L (Home L root (waiting t self d)) A T P w' :=
  h.two (fun _ _ => rfl)

theorem stable_waiting {t : Tag} : ∀ l, l ≤ N → L.Stable self (Home L root (waiting t self d) l) :=
  fun _ _ => Top.stableUnder (r := ⟨self, .used, true⟩)

/-- The end of the two-phase borrow. -/
theorem sim_passWaiting {t : Tag} {body : Tag → M (World R N) ε α} {m₀ : M (ArrayString N) ε β}
    {Q : α → β → (Nat → List Tag) → Prop}
    (h : State L (Home L root (waiting t self d)) A T P w) (hd : useAll d = d)
    (hb : ∀ d' u w', useAll d' = d' → w'.str = w.str → State L (Home L root (own u d')) A T P w' →
      Sim L (Home L root (own u d')) A P T (body u) m₀ w' Q) :
    Sim L (Home L root (own self d)) A P T (passUnique t 0 (N + 1) body) m₀ w Q :=
  sim_passSelf (c := ⟨self, .used, true⟩ :: d) h (use_own hd)
    fun u w' hs g => hb _ u w' (use_call hd) hs g

theorem State.unwait {t : Tag} (h : State L (Home L root (waiting t self d)) A T P w) :
    State L (Home L root (own self d)) A T P w :=
  h.map fun _ _ _ hm => Top.pop (c := ⟨self, .used, true⟩ :: d) hm rfl

theorem State.isCharBoundary {idx : Nat} (h : State L φ A T P w) (hb : ∀ l, l ≤ N → L.Stable self (φ l))
    (hs : Shape w.str) :
    ∃ w' T', (Borrow.isCharBoundary self idx : M (World R N) Utf8 Unit) w =
      (w.str.isCharBoundary idx, w') ∧ w'.str = w.str ∧ State L φ A T' P w' ∧ Keeps N T T' := by
  obtain ⟨a, w1, T1, h1, h2, h3, h4, h5⟩ := h.run (b := fun _ => self) hb
    (runs_boundary (ε := Utf8) (idx := idx) (usable_self (fun _ _ => rfl)) A.lt hs.2)
  refine ⟨w1, T1, ?_, h2, h3, h4⟩
  unfold Borrow.isCharBoundary
  rw [bind_ok h1, bind_ok (m := get) (w := w1) (a := w1.str) (w' := w1) rfl, h2]
  rfl

/-! ## Pushing and inserting text -/

theorem sim_tryPushStr [ValidCapacity N] {string : Bytes} (h : State L (Home L root (own self d)) A T P w)
    (hd : useAll d = d) (hN : N + 1 + string.length ≤ A.total)
    (ht : Usable A.b T arg (N + 1) (N + 1 + string.length)) (hs : Shape w.str) :
    Same L (Home L root (own self d)) A P T (tryPushStr self arg string) (ArrayString.tryPushStr string) w := by
  refine sim_passText h ht (by omega) hN fun text w1 T1 P1 s1 g1 k1 c1 => ?_
  refine sim_right (b := w1.str) rfl ?_
  obtain ⟨w2, T2, e2, s2, g2, k2⟩ := g1.len (ε := OutOfBounds) stable_own
  refine sim_left e2 s2 k2 (sim_mapErr (sim_callOwn g2 hd fun d' u w3 hd' s3 g3 => ?_))
  exact sim_replaceRangeOn g3 hd' hN (k2.covers c1 (by omega)).usable (by rw [s3, s2, s1]; exact hs)

theorem sim_tryInsertStr [ValidCapacity N] {idx : Nat} {string : Bytes} (h : State L (Home L root (own self d)) A T P w)
    (hd : useAll d = d) (hN : N + 1 + string.length ≤ A.total)
    (ht : Usable A.b T arg (N + 1) (N + 1 + string.length)) (hs : Shape w.str) :
    Same L (Home L root (own self d)) A P T (tryInsertStr self arg idx string)
      (ArrayString.tryInsertStr idx string) w := by
  refine sim_passText h ht (by omega) hN fun text w1 T1 P1 s1 g1 k1 c1 => ?_
  refine sim_right (b := w1.str) rfl ?_
  obtain ⟨w2, T2, e2, s2, g2, k2⟩ := g1.len (ε := Error) stable_own
  have hs2 : Shape w2.str := by rw [s2, s1]; exact hs
  refine sim_left e2 s2 k2 (sim_try_bind g2 hs2 fun _ _ => sim_callOwn g2 hd fun d' u w3 hd' s3 g3 => ?_)
  exact sim_replaceRangeOn g3 hd' hN (k2.covers c1 (by omega)).usable (by rw [s3]; exact hs2)

theorem sim_writeStr [ValidCapacity N] {slice : Bytes} (h : State L (Home L root (own self d)) A T P w)
    (hd : useAll d = d) (hN : N + 1 + slice.length ≤ A.total)
    (ht : Usable A.b T arg (N + 1) (N + 1 + slice.length)) (hs : Shape w.str) :
    Same L (Home L root (own self d)) A P T (writeStr self arg slice) (ArrayString.writeStr slice) w := by
  refine sim_passText h ht (by omega) hN fun text w1 T1 P1 s1 g1 k1 c1 => ?_
  refine sim_mapErr (sim_callOwn g1 hd fun d' u w3 hd' s3 g3 => ?_)
  exact sim_tryPushStr g3 hd' hN c1.usable (by rw [s3, s1]; exact hs)

/-! ## Truncating the argument -/

/-- What comes back from `truncate_str`. -/
abbrev Cut (N : Nat) (n : Nat) (a : Tag × Bytes) (b : Bytes) (T : Nat → List Tag) : Prop :=
  a.2 = b ∧ b.length ≤ n ∧ Covers T a.1 (N + 1) (N + 1 + b.length)

theorem sim_cut {t : Tag} {slice : Bytes} {size : Nat} {b : Nat → Tag} (h : State L φ A T P w)
    (hb : ∀ l, l ≤ N → L.Stable (b l) (φ l)) (hs : Shape w.str) (hN : N + 1 + slice.length ≤ A.total)
    (ht : Usable A.b T t (N + 1) (N + 1 + slice.length)) :
    Sim L φ A P T (cut t slice size : M _ ε _) (M.lift (Str.getUnchecked slice 0 size)) w
      (Cut N slice.length) := by
  unfold cut Str.getUnchecked
  split
  next hc =>
    obtain ⟨u, w1, T1, e1, s1, g1, k1, c1⟩ := h.run hb
      (runs_through (ε := ε) (lo' := N + 1) (hi' := N + 1 + size)
        (usable_text ht (by omega)) hN (Nat.le_refl _) (by omega))
    have hl : ((slice.drop 0).take (size - 0)).length = size := by
      simp only [List.drop_zero, Nat.sub_zero, List.length_take]; omega
    refine sim_left (w' := w) rfl rfl .refl (sim_left e1 s1 k1 ?_)
    exact sim_pure g1 (by rw [s1]; exact hs) ⟨rfl, by rw [hl]; omega, by rw [hl]; exact c1⟩
  next =>
    exact ⟨.ub, w, T, rfl, rfl, .ub, fun hr => absurd rfl hr.1⟩

theorem sim_truncateStr {t : Tag} {slice : Bytes} {size : Nat} {b : Nat → Tag} (h : State L φ A T P w)
    (hb : ∀ l, l ≤ N → L.Stable (b l) (φ l)) (hs : Shape w.str) (hN : N + 1 + slice.length ≤ A.total)
    (ht : Usable A.b T t (N + 1) (N + 1 + slice.length)) :
    Sim L φ A P T (truncateStr t slice size : M _ ε _) (M.lift (Verif.truncateStr slice size)) w
      (Cut N slice.length) := by
  refine sim_passText h ht (by omega) hN fun t1 w1 T1 P1 s1 g1 k1 c1 => ?_
  have look : ∀ {w1 T1 P1} (size : Nat) (m : Unit → M (World R N) ε (Tag × Bytes)) (r : Res ε Bytes),
      w1.str = w.str → State L φ A T1 P1 w1 → Covers T1 t1 (N + 1) (N + 1 + slice.length) →
      (∀ w2 T2, w2.str = w.str → State L φ A T2 P1 w2 → Covers T2 t1 (N + 1) (N + 1 + slice.length) →
        Sim L φ A P1 T2 (m ()) (M.lift r) w2 (Cut N slice.length)) →
      Sim L φ A P1 T1 (readBoundary t1 (N + 1) slice.length size >>= m) (M.lift r) w1
        (Cut N slice.length) := by
    intro w1 T1 P1 size m r s1 g1 c1 hm
    obtain ⟨_, w2, T2, e2, s2, g2, k2, _⟩ := g1.run hb
      (runs_readBoundary (ε := ε) (idx := size) (usable_text c1.usable (by omega)) hN)
    exact sim_left e2 s2 k2 (hm w2 T2 (s2.trans s1) g2 (k2.covers c1 (by omega)))
  have step : ∀ {w1 T1 P1} (size : Nat) (m : Nat → M (World R N) ε (Tag × Bytes)) (r : Nat → Res ε Bytes),
      w1.str = w.str → State L φ A T1 P1 w1 → Covers T1 t1 (N + 1) (N + 1 + slice.length) →
      (∀ size, Sim L φ A P1 T1 (m size) (M.lift (r size)) w1 (Cut N slice.length)) →
      Sim L φ A P1 T1 (M.lift (subUsize size 1) >>= m) (M.lift (subUsize size 1 >>= r)) w1
        (Cut N slice.length) := by
    intro w1 T1 P1 size m r s1 g1 c1 hm
    have e : (M.lift (subUsize size 1 >>= r) : M (ArrayString N) ε Bytes) =
        (M.lift (subUsize size 1) >>= fun n => M.lift (r n)) := by
      funext s
      cases subUsize size 1 <;> rfl
    rw [e]
    exact sim_lift_bind g1 (by rw [s1]; exact hs) (fun a _ => hm a)
  unfold Verif.truncateStr
  by_cases h0 : slice.length ≤ size
  · rw [if_pos h0, if_pos h0]
    obtain ⟨u, w2, T2, e2, s2, g2, k2, c2⟩ := g1.run hb
      (runs_shared (ε := ε) (usable_text c1.usable (by omega)) hN)
    exact sim_left e2 s2 k2 (sim_pure g2 (by rw [s2, s1]; exact hs) ⟨rfl, Nat.le_refl _, c2⟩)
  rw [if_neg h0, if_neg h0]
  refine look _ _ _ s1 g1 c1 fun w2 T2 s2 g2 c2 => ?_
  split
  · exact sim_cut g2 hb (by rw [s2]; exact hs) hN c2.usable
  refine step _ _ _ s2 g2 c2 fun size => ?_
  refine look _ _ _ s2 g2 c2 fun w3 T3 s3 g3 c3 => ?_
  split
  · exact sim_cut g3 hb (by rw [s3]; exact hs) hN c3.usable
  refine step _ _ _ s3 g3 c3 fun size => ?_
  refine look _ _ _ s3 g3 c3 fun w4 T4 s4 g4 c4 => ?_
  split
  · exact sim_cut g4 hb (by rw [s4]; exact hs) hN c4.usable
  refine step _ _ _ s4 g4 c4 fun size => ?_
  exact sim_cut g4 hb (by rw [s4]; exact hs) hN c4.usable

theorem sim_truncated {text : Tag} {string : Bytes} (h : State L φ A T P w)
    (hb : ∀ l, l ≤ N → L.Stable self (φ l)) (hs : Shape w.str) (hN : N + 1 + string.length ≤ A.total)
    (ht : Usable A.b T text (N + 1) (N + 1 + string.length)) :
    Sim L φ A P T (truncated self text string : M _ ε _)
      (M.lift (subUsize (ArrayString.capacity N) w.str.len) >>= fun room =>
        M.lift (Verif.truncateStr string room)) w (Cut N string.length) := by
  obtain ⟨a, w1, T1, e1, s1, g1, k1, c1⟩ := h.run hb
    (runs_through (ε := ε) (lo' := N + 1) (hi' := N + 1 + string.length)
      (usable_text ht (by omega)) hN (Nat.le_refl _) (Nat.le_refl _))
  obtain ⟨w2, T2, e2, s2, g2, k2⟩ := g1.len (ε := ε) hb
  have hs2 : Shape w2.str := by rw [s2, s1]; exact hs
  refine sim_left e1 s1 k1 (sim_left e2 s2 k2 ?_)
  rw [s1]
  refine sim_lift_bind g2 hs2 fun room _ => ?_
  have e : (M.lift (Verif.truncateStr string room) : M (ArrayString N) ε Bytes) =
      (M.lift (Verif.truncateStr string room) >>= pure) := by
    funext s
    show _ = M.bind _ _ s
    unfold M.bind M.lift
    cases (Verif.truncateStr string room : Res ε Bytes) <;> rfl
  rw [e]
  refine sim_bind (sim_truncateStr g2 hb hs2 hN (k2.covers c1 (by omega)).usable) (fun _ _ _ h => h)
    fun r b w3 T3 _ g3 _ hs3 q3 => ?_
  obtain ⟨a, t⟩ := r
  obtain ⟨rfl, q4, q5⟩ := q3
  simp only at q4 q5 ⊢
  obtain ⟨u, w4, T4, e4, s4, g4, k4, c4⟩ := g3.run hb
    (runs_shared (ε := ε) (usable_text q5.usable (by omega)) (by omega))
  exact sim_left e4 s4 k4 (sim_pure g4 (by rw [s4]; exact hs3) ⟨rfl, q4, c4⟩)

theorem sim_pushStrTruncate [ValidCapacity N] {string : Bytes} (h : State L (Home L root (own self d)) A T P w)
    (hd : useAll d = d) (hN : N + 1 + string.length ≤ A.total)
    (ht : Usable A.b T arg (N + 1) (N + 1 + string.length)) (hs : Shape w.str) :
    Same L (Home L root (own self d)) A P T (pushStrTruncate self arg string : M _ ε _)
      (ArrayString.pushStrTruncate string) w := by
  refine sim_passText h ht (by omega) hN fun text w1 T1 P1 s1 g1 k1 c1 => ?_
  refine sim_right (b := w1.str) rfl ?_
  obtain ⟨u, w2, e2, s2, g2⟩ := g1.twoOwn (ε := ε)
  have hs2 : Shape w2.str := by rw [s2, s1]; exact hs
  refine sim_left e2 s2 .refl ?_
  rw [← s2, ← bind_assoc' (σ := ArrayString N)]
  refine sim_bind (sim_truncated g2 stable_waiting hs2 hN c1.usable)
    (fun _ _ _ hm => Top.pop (r := ⟨u, .raw, false⟩) (c := ⟨self, .used, true⟩ :: d) hm rfl) ?_
  rintro ⟨a, t⟩ _ w3 T3 e3 g3 k3 hs3 ⟨rfl, hl, c3⟩
  refine sim_bind (sim_attempt (sim_passWaiting g3 hd fun d' u w4 hd' s4 g4 => ?_)) (fun _ _ _ h => h) ?_
  · exact sim_tryPushStr g4 hd' (by simp only at hl ⊢; omega) c3.usable (by rw [s4]; exact hs3)
  · intro _ _ w4 T4 _ g4 _ hs4 _
    exact sim_pure g4 hs4 rfl

theorem sim_insertStrTruncate [ValidCapacity N] {idx : Nat} {string : Bytes} (h : State L (Home L root (own self d)) A T P w)
    (hd : useAll d = d) (hN : N + 1 + string.length ≤ A.total)
    (ht : Usable A.b T arg (N + 1) (N + 1 + string.length)) (hs : Shape w.str) :
    Same L (Home L root (own self d)) A P T (insertStrTruncate self arg idx string)
      (ArrayString.insertStrTruncate idx string) w := by
  refine sim_passText h ht (by omega) hN fun text w1 T1 P1 s1 g1 k1 c1 => ?_
  refine sim_right (b := w1.str) rfl ?_
  obtain ⟨u, w2, e2, s2, g2⟩ := g1.twoOwn (ε := Error)
  have hs2 : Shape w2.str := by rw [s2, s1]; exact hs
  refine sim_left e2 s2 .refl ?_
  rw [← s2, ← bind_assoc' (σ := ArrayString N)]
  refine sim_bind (sim_truncated g2 stable_waiting hs2 hN c1.usable)
    (fun _ _ _ hm => Top.pop (r := ⟨u, .raw, false⟩) (c := ⟨self, .used, true⟩ :: d) hm rfl) ?_
  rintro ⟨a, t⟩ _ w3 T3 e3 g3 k3 hs3 ⟨rfl, hl, c3⟩
  refine sim_passWaiting g3 hd fun d' u w4 hd' s4 g4 => ?_
  exact sim_tryInsertStr g4 hd' (by simp only at hl ⊢; omega) c3.usable (by rw [s4]; exact hs3)

/-! ## A buffer on the stack -/

/-- The memory of a local `[0; size]`. -/
def bufText (R : Rules) (N : Nat) (buf : Tag) (size : Nat) : Text R N :=
  ⟨fun _ => buf, fun _ st => (R.write buf st).isSome, N + 1 + size, by omega⟩

theorem sim_withBuf {size : Nat} {body : Tag → M (World R N) ε α} {m₀ : M (ArrayString N) ε α}
    (h : State L φ' A T P w)
    (hb : ∀ buf w', w'.str = w.str → State L φ' (bufText R N buf size) (fun _ => []) (fun _ => []) w' →
      Same L φ (bufText R N buf size) (fun _ => []) (fun _ => []) (body buf) m₀ w') :
    Same L φ A P T (withBuf size body) m₀ w := by
  let v : World R N := {
    str := w.str
    mem := fun l => if l ≤ N then w.mem l else if l < N + 1 + size then R.alloc w.next else R.empty
    next := w.next + 1 }
  have hv : State L φ' (bufText R N w.next size) (fun _ => []) (fun _ => []) v := by
    constructor
    · intro l hl
      obtain ⟨h1, h2⟩ := h.1 l hl
      show φ' l (if l ≤ N then _ else _) ∧ L.Below (w.next + 1) (if l ≤ N then _ else _)
      rw [if_pos hl]
      exact ⟨h1, L.below_mono h2 (Nat.le_succ _)⟩
    · intro l h1 h2
      show L.Side _ _ _ _ (if l ≤ N then _ else _) ∧ L.Below (w.next + 1) (if l ≤ N then _ else _)
      rw [if_neg (by omega), if_pos (show l < N + 1 + size from h2)]
      exact ⟨L.side_start L.stable_root L.alloc_write, L.alloc_below⟩
  obtain ⟨r, v', T', e1, s1, m1, g1⟩ := hb w.next v rfl hv
  refine ⟨r, { str := v'.str
               mem := fun l => if l ≤ N then v'.mem l else w.mem l
               next := max w.next v'.next }, T, ?_, s1, m1, fun hr => ⟨⟨?_, ?_⟩, .refl, (g1 hr).2.2⟩⟩
  · show ((body w.next v).1, (⟨(body w.next v).2.str,
      fun l => if l ≤ N then (body w.next v).2.mem l else w.mem l,
      max w.next (body w.next v).2.next⟩ : World R N)) = _
    rw [e1]
  · intro l hl
    obtain ⟨h1, h2⟩ := (g1 hr).1.1 l hl
    simp only [if_pos hl]
    exact ⟨h1, L.below_mono h2 (Nat.le_max_right _ _)⟩
  · intro l h1 h2
    obtain ⟨h3, h4⟩ := h.2 l h1 h2
    simp only [if_neg (show ¬ l ≤ N by omega)]
    exact ⟨h3, L.below_mono h4 (Nat.le_max_left _ _)⟩

theorem encode_length (ch : Char) : (Str.encodeUtf8 ch).length ≤ 4 := by
  unfold Str.encodeUtf8
  rw [String.length_utf8EncodeChar]
  exact Char.utf8Size_le_four ch

theorem State.encode {buf : Tag} {ch : Char} {b : Nat → Tag}
    (h : State L φ (bufText R N buf 4) (fun _ => []) (fun _ => []) w)
    (hb : ∀ l, l ≤ N → L.Stable (b l) (φ l)) :
    ∃ a w' T', (Borrow.encode buf ch : M (World R N) ε Tag) w = (.ok a, w') ∧ w'.str = w.str ∧
      State L φ (bufText R N buf 4) T' (fun _ => []) w' ∧
      Covers T' a (N + 1) (N + 1 + (Str.encodeUtf8 ch).length) := by
  have hl := encode_length ch
  obtain ⟨mem', h1, h2⟩ := touch_run (ε := ε) (w := w) (lo := N + 1)
    (hi := N + 1 + (Str.encodeUtf8 ch).length) (f := R.write buf)
    (Q := fun l st => (l ≤ N → φ l st ∧ L.Below w.next st) ∧ (N < l → l < (bufText R N buf 4).total →
      L.Side buf (fun st => (R.write buf st).isSome) [] [] st ∧ L.Below w.next st))
    (fun l h1 h2 => by
      obtain ⟨g1, g2⟩ := h.2 l (by omega) (show l < N + 1 + 4 by omega)
      obtain ⟨st', q1, q2, q3⟩ := L.root_write (L.side_end g1) g2
      exact ⟨st', q1, fun _ => by omega, fun _ _ => ⟨L.side_start L.stable_root q2, q3⟩⟩)
    (fun l _ => ⟨h.1 l, h.2 l⟩)
  have g : State L φ (bufText R N buf 4) (fun _ => []) (fun _ => []) { w with mem := mem' } :=
    ⟨fun l hl => (h2 l).1 hl, fun l h3 h4 => (h2 l).2 h3 h4⟩
  obtain ⟨a, w2, T2, e2, s2, g2, _, c2⟩ := g.run hb
    (runs_shared (ε := ε) (usable_text (lo := N + 1) (hi := N + 1 + (Str.encodeUtf8 ch).length)
      (t := buf) (fun _ _ _ => Or.inl rfl) (by omega)) (show _ ≤ N + 1 + 4 by omega))
  refine ⟨a, w2, T2, ?_, s2, g2, c2⟩
  unfold Borrow.encode
  rw [writeAt, bind_ok h1, e2]

theorem sim_tryPush [ValidCapacity N] {ch : Char} (h : State L (Home L root (own self d)) A T P w)
    (hd : useAll d = d) (hs : Shape w.str) :
    Same L (Home L root (own self d)) A P T (tryPush self ch) (ArrayString.tryPush ch) w := by
  refine sim_withBuf h fun buf w1 s1 g1 => ?_
  obtain ⟨u, w2, e2, s2, g2⟩ := g1.twoOwn (ε := OutOfBounds)
  obtain ⟨a, w3, T3, e3, s3, g3, c3⟩ := g2.encode (ε := OutOfBounds) (ch := ch) stable_waiting
  refine sim_left e2 s2 .refl (sim_left (T' := T3) e3 s3 (fun _ _ _ h => nomatch h) ?_)
  refine sim_passWaiting g3 hd fun d' u w4 hd' s4 g4 => ?_
  have := encode_length ch
  exact sim_tryPushStr g4 hd' (show _ ≤ N + 1 + 4 by omega) c3.usable (by rw [s4, s3, s2, s1]; exact hs)

theorem sim_tryInsert [ValidCapacity N] {idx : Nat} {ch : Char} (h : State L (Home L root (own self d)) A T P w)
    (hd : useAll d = d) (hs : Shape w.str) :
    Same L (Home L root (own self d)) A P T (tryInsert self idx ch) (ArrayString.tryInsert idx ch) w := by
  refine sim_withBuf h fun buf w1 s1 g1 => ?_
  obtain ⟨u, w2, e2, s2, g2⟩ := g1.twoOwn (ε := Error)
  obtain ⟨a, w3, T3, e3, s3, g3, c3⟩ := g2.encode (ε := Error) (ch := ch) stable_waiting
  refine sim_left e2 s2 .refl (sim_left (T' := T3) e3 s3 (fun _ _ _ h => nomatch h) ?_)
  refine sim_passWaiting g3 hd fun d' u w4 hd' s4 g4 => ?_
  have := encode_length ch
  exact sim_tryInsertStr g4 hd' (show _ ≤ N + 1 + 4 by omega) c3.usable (by rw [s4, s3, s2, s1]; exact hs)

/-! ## The size, and a closure that holds a reference to it -/

theorem sim_setSize {z : UInt8} (h : State L (Home L root c) A T P w) (hc : tagOf root (c N) = self)
    (hk : ∀ l, useAll (c l) = c l) (hs : Shape w.str) (hz : z.toNat ≤ N) :
    Same L (Home L root c) A P T (setSize self z : M _ ε _)
      (fun s => (.ok (), { s with size := z })) w := by
  obtain ⟨w1, e1, s1, g1⟩ := h.setSize (ε := ε) hc (z := z)
  rw [show (fun l => useAll (c l)) = c from funext hk] at g1
  exact ⟨.ok (), w1, T, e1, s1, .ok rfl, fun _ => ⟨g1, .refl, hs.1, hz⟩⟩

theorem sim_clear (h : State L (Home L root (own self d)) A T P w) (hd : useAll d = d) (hs : Shape w.str) :
    Same L (Home L root (own self d)) A P T (clear self : M _ ε _) ArrayString.clear w :=
  sim_setSize (c := own self d) h rfl (fun _ => use_own hd) hs (Nat.zero_le _)

theorem use_push {r : Ref} {lo hi : Nat} (hr : r.use = r) (hk : ∀ l, useAll (c l) = c l) :
    ∀ l, useAll (push r lo hi c l) = push r lo hi c l := by
  intro l
  unfold push
  split
  · rw [useAll_cons, hr, hk]
  · exact hk l

theorem tag_push {r : Ref} : tagOf root (push r N (N + 1) c N) = r.tag := by
  rw [push_in ⟨Nat.le_refl _, by omega⟩]; rfl

/-- Pass a reference to the size to a function. -/
theorem sim_passSize {t : Tag} {body : Tag → M (World R N) ε α} {m₀ : M (ArrayString N) ε β}
    {Q : α → β → (Nat → List Tag) → Prop}
    (h : State L (Home L root c) A T P w) (hc : tagOf root (c N) = t) (hk : ∀ l, useAll (c l) = c l)
    (hb : ∀ u w', w'.str = w.str → State L (Home L root (push ⟨u, .used, true⟩ N (N + 1) c)) A T P w' →
      Sim L (Home L root (push ⟨u, .used, true⟩ N (N + 1) c)) A P T (body u) m₀ w' Q) :
    Sim L (Home L root c) A P T (passUnique t N (N + 1) body) m₀ w Q := by
  have := sim_passUnique (lo := N) (hi := N + 1) (t := t) (body := body) (m₀ := m₀) (Q := Q) h
    (Nat.le_refl _) (fun l h1 h2 => by obtain rfl : l = N := by omega
                                       exact hc)
  rw [show (fun l => useAll (c l)) = c from funext hk] at this
  exact this hb

/-- A closure that holds a `&mut self.size` is passed to a function. -/
theorem sim_closure {body : Tag → M (World R N) ε α} {m₀ : M (ArrayString N) ε β}
    {Q : α → β → (Nat → List Tag) → Prop}
    (h : State L (Home L root (own self d)) A T P w) (hd : useAll d = d)
    (hb : ∀ u k w', w'.str = w.str → (∀ l, useAll (k l) = k l) →
      State L (Home L root (push ⟨u, .used, true⟩ N (N + 1) k)) A T P w' →
      Sim L (Home L root (push ⟨u, .used, true⟩ N (N + 1) k)) A P T (body u) m₀ w' Q) :
    Sim L (Home L root (own self d)) A P T
      (retagUnique self N (N + 1) false >>= fun c => passUnique c N (N + 1) body) m₀ w Q := by
  obtain ⟨w1, e1, s1, g1⟩ := h.uniqueHome (ε := ε) (lo := N) (hi := N + 1) (t := self) (p := false)
    (Nat.le_refl _) (fun _ _ _ => ⟨_, _, rfl, rfl⟩)
  replace g1 : State L (Home L root (push ⟨w.next, .used, false⟩ N (N + 1) (own self d))) A T P w1 := by
    refine g1.map fun l st _ hm => ?_
    have := Top.use hm
    unfold push at this
    unfold Home push
    split
    next hl =>
      rw [if_pos hl, useAll_cons, show useAll (own self d l) = own self d l from use_own hd] at this
      exact this
    next hl =>
      rw [if_neg hl, show useAll (own self d l) = own self d l from use_own hd] at this
      exact this
  have hk := use_push (lo := N) (hi := N + 1) (r := ⟨w.next, .used, false⟩) (c := own self d) rfl
    fun _ => use_own hd
  refine sim_left e1 s1 .refl (sim_map (sim_passSize g1 tag_push hk fun u w' hs g =>
    hb u _ w' (hs.trans s1) hk g) fun l st hl hm => ?_)
  unfold Home push at hm
  split at hm
  · exact Top.pop hm rfl
  · exact hm

theorem sim_attempt_bind {m : M (World R N) ε α} {f : Except ε α → M (World R N) ε γ}
    {g : α → M (ArrayString N) ε δ} {Q : γ → δ → (Nat → List Tag) → Prop} {r : Res ε α} {w' : World R N} {T'}
    (e : m w = (r, w')) (s : w'.str = w.str) (h : State L φ A T' P w') (hk : Keeps N T T')
    (hs : Shape w.str)
    (hok : ∀ a, r = .ok a → Sim L φ A P T' (f (.ok a)) (g a) w' Q)
    (herr : ∀ x, r = .err x → Sim L φ A P T' (f (.error x)) (M.lift (.err x) : M _ _ δ) w' Q) :
    Sim L φ A P T (M.attempt m >>= f) (M.lift r >>= g) w Q := by
  cases r with
  | ok a =>
    exact sim_left (m := M.attempt m) (a := .ok a) (w' := w') (by simp only [M.attempt, e]; rfl) s hk
      (hok a rfl)
  | err x =>
    exact sim_left (m := M.attempt m) (a := .error x) (w' := w') (by simp only [M.attempt, e]; rfl) s hk
      (herr x rfl)
  | panic => exact ⟨.panic, w', T', bind_attempt e, s, .panic, fun _ => ⟨h, hk, hs⟩⟩
  | ub => exact ⟨.ub, w', T', bind_attempt e, s, .ub, fun hr => absurd rfl hr.1⟩
  | diverge => exact ⟨.diverge, w', T', bind_attempt e, s, .diverge, fun hr => absurd rfl hr.2⟩

theorem sim_truncate {size : Nat} (h : State L (Home L root (own self d)) A T P w)
    (hd : useAll d = d) (hs : Shape w.str) :
    Same L (Home L root (own self d)) A P T (truncate self size) (ArrayString.truncate size) w := by
  refine sim_right (b := w.str) rfl ?_
  obtain ⟨w1, T1, e1, s1, g1, k1⟩ := h.len (ε := Utf8) stable_own
  refine sim_left e1 s1 k1 ?_
  have hs1 : Shape w1.str := by rw [s1]; exact hs
  obtain ⟨w2, T2, e2, s2, g2, k2⟩ := g1.isCharBoundary (idx := min w.str.len size) stable_own hs1
  rw [s1] at e2
  have hs2 : Shape w2.str := by rw [s2]; exact hs1
  refine sim_attempt_bind e2 s2 g2 k2 hs1 (fun a ha => ?_) (fun x hx => ?_)
  · refine sim_closure g2 hd fun u k w3 s3 hk g3 => ?_
    refine sim_passSize g3 tag_push (use_push rfl hk) fun v w4 s4 g4 => ?_
    have hw : w4.str = w.str := by rw [s4, s3, s2, s1]
    have := sim_setSize (ε := Utf8) (z := intoLossy (min w.str.len size)) g4 tag_push
      (use_push rfl (use_push rfl hk)) (by rw [hw]; exact hs)
      (by
        show (UInt8.ofNat _).toNat ≤ N
        simp only [UInt8.toNat_ofNat']
        exact Nat.le_trans (Nat.mod_le _ _) (Nat.le_trans (Nat.min_le_left _ _) hs.2))
    rw [← hw] at this ⊢
    exact this
  · refine sim_closure g2 hd fun u k w3 s3 hk g3 => ?_
    exact sim_lift g3 (by rw [s3]; exact hs2)

theorem asStr_ok {s : ArrayString N} {b : Bytes} (h : (s.asStr : Res ε Bytes) = .ok b) :
    b.length = s.len ∧ Str.validUtf8 b = true := by
  unfold ArrayString.asStr ArrayString.asRefStr ArrayString.asRefBytes debugAssert getUncheckedTo
    Str.fromUtf8Unchecked at h
  by_cases h0 : profile.debugAssertions = true <;> by_cases h1 : s.len ≤ N <;>
    by_cases h2 : s.len ≤ s.array.length <;> by_cases h3 : Str.validUtf8 (s.array.take s.len) = true <;>
    simp [h0, h1, h2, h3, bind, Res.bind] at h
  all_goals subst h
  all_goals
  exact ⟨by simp only [List.length_take]; omega, h3⟩

theorem sub_u8 {a b z : UInt8} (h : (subU8 a b : Res ε UInt8) = .ok z) (hab : b.toNat ≤ a.toNat) :
    z.toNat ≤ a.toNat := by
  unfold subU8 at h
  rw [if_pos hab] at h
  cases h
  rw [UInt8.toNat_sub_of_le]
  · omega
  · assumption

/-- The last character is no longer than the text. -/
theorem last_size {b : Bytes} {ch : Char} (hb : Str.validUtf8 b = true) (h : (Str.chars b).getLast? = some ch) :
    ch.utf8Size ≤ b.length := by
  obtain ⟨cs, rfl⟩ := (validUtf8_iff b).1 hb
  rw [chars_utf8] at h
  obtain ⟨ds, rfl⟩ := List.getLast?_eq_some_iff.1 h
  rw [length_utf8, byteLen_append, byteLen_cons]
  omega

theorem sim_pop (h : State L (Home L root (own self d)) A T P w) (hd : useAll d = d) (hs : Shape w.str) :
    Same L (Home L root (own self d)) A P T (pop self : M _ ε _) ArrayString.pop w := by
  refine sim_right (b := w.str) rfl ?_
  obtain ⟨w1, T1, e1, s1, g1, k1⟩ := h.look (ε := ε) stable_own hs
  refine sim_left e1 s1 k1 (sim_left (m := get) (a := w.str) (w' := w1) (by rw [← s1]; rfl) rfl .refl ?_)
  have hs1 : Shape w1.str := by rw [s1]; exact hs
  refine sim_lift_bind g1 hs1 fun b hb => ?_
  obtain ⟨hl, hv⟩ := asStr_ok hb
  generalize hlast : (Str.chars b).getLast? = last
  refine sim_closure g1 hd fun u k w2 s2 hk g2 => ?_
  have hs2 : Shape w2.str := by rw [s2]; exact hs1
  cases last with
  | none => exact sim_pure g2 hs2 rfl
  | some ch =>
    refine sim_passSize g2 tag_push (use_push rfl hk) fun v w3 s3 g3 => ?_
    obtain ⟨_, w4, T4, e4, s4, g4, k4, _⟩ := g3.run stable_home
      (runs_read (ε := ε) (lo := N) (hi := N + 1) (t := v) (fun l h1 h2 => by
        obtain rfl : l = N := by omega
        exact Or.inl (by simp only [bases, if_pos (Nat.le_refl _)]; exact (tag_push (r := ⟨v, .used, true⟩)).symm))
        (show N + 1 ≤ A.total from A.lt))
    have hw : w4.str = w.str := by rw [s4, s3, s2, s1]
    have hs4 : Shape w4.str := by rw [hw]; exact hs
    refine sim_left e4 s4 k4 (sim_left (m := get) (a := w.str) (w' := w4) (by rw [← hw]; rfl) rfl .refl ?_)
    refine sim_lift_bind g4 hs4 fun z hz => ?_
    refine sim_bind (Q := fun a b _ => a = b) (m₀ := M.setSelf { w.str with size := z }) ?_
      (fun _ _ _ h => h) (fun _ _ w5 T5 _ g5 _ hs5 _ => sim_pure g5 hs5 rfl)
    have := sim_setSize (ε := ε) (z := z) g4 tag_push (use_push rfl (use_push rfl hk)) hs4
      (Nat.le_trans (sub_u8 hz (by
        have h1 := last_size hv hlast
        have h2 := w.str.size.toNat_lt
        rw [show b.length = w.str.size.toNat from hl] at h1
        rw [intoLossy, UInt8.toNat_ofNat', Nat.mod_eq_of_lt (by rw [Str.lenUtf8]; omega)]
        exact h1)) hs.2)
    rw [← hw]
    exact this

theorem sim_trim [ValidCapacity N] (h : State L (Home L root (own self d)) A T P w) (hd : useAll d = d) (hs : Shape w.str) :
    Same L (Home L root (own self d)) A P T (trim self : M _ ε _) ArrayString.trim w := by
  refine sim_right (b := w.str) rfl ?_
  obtain ⟨w1, T1, e1, s1, g1, k1⟩ := h.len (ε := ε) stable_own
  have hs1 : Shape w1.str := by rw [s1]; exact hs
  obtain ⟨w2, T2, e2, s2, g2, k2⟩ := g1.look (ε := ε) stable_own hs1
  have hs2 : Shape w2.str := by rw [s2]; exact hs1
  refine sim_left e1 s1 k1 (sim_left e2 s2 k2 (sim_left (m := get) (a := w.str) (w' := w2)
    (by rw [← s1, ← s2]; rfl) rfl .refl ?_))
  refine sim_lift_bind g2 hs2 fun b _ => ?_
  obtain ⟨w3, T3, e3, s3, g3, k3⟩ := g2.len (ε := ε) stable_own
  have hs3 : Shape w3.str := by rw [s3]; exact hs2
  obtain ⟨w4, T4, e4, s4, g4, k4⟩ := g3.look (ε := ε) stable_own hs3
  have hs4 : Shape w4.str := by rw [s4]; exact hs3
  have hw : w4.str = w.str := by rw [s4, s3, s2, s1]
  rw [s2, s1] at e3
  refine sim_left e3 s3 k3 (sim_left e4 s4 k4 ?_)
  dsimp only
  generalize ArrayString.trimEnd (ArrayString.trimStart w.str.len (Str.charIndices b)) w.str.len
    (Str.charIndices b).reverse = stop
  generalize ArrayString.trimStart w.str.len (Str.charIndices b) = start
  cases stop with
  | none =>
    have := sim_setSize (ε := ε) (self := self) (z := 0) (c := own self d) g4 rfl (fun _ => use_own hd) hs4 (Nat.zero_le _)
    rw [← hw]
    exact this
  | some stop =>
    have cutOff : ∀ {w5 T5} (r : RangeB), State L (Home L root (own self d)) A T5 P w5 → Shape w5.str →
        Same L (Home L root (own self d)) A P T5
          (M.attempt (callMut self fun self => replaceRangeOn self emptyLit r []) : M _ ε _)
          (M.attempt (ArrayString.replaceRange r [])) w5 := by
      intro w5 T5 r g5 hs5
      refine sim_attempt (sim_callOwn g5 hd fun d' u w6 hd' s6 g6 => ?_)
      exact sim_replaceRangeOn g6 hd' A.lt (fun l h1 h2 => absurd h2 (Nat.not_lt_of_le h1))
        (by rw [s6]; exact hs5)
    refine sim_bind (cutOff _ g4 hs4) (fun _ _ _ h => h) fun _ _ w5 T5 _ g5 _ hs5 _ => ?_
    refine sim_bind (cutOff _ g5 hs5) (fun _ _ _ h => h) fun _ _ w6 T6 _ g6 _ hs6 _ => ?_
    exact sim_pure g6 hs6 rfl

theorem addUsize_le {a b c : Nat} (h : (addUsize a b : Res ε Nat) = .ok c) : c ≤ usizeMax := by
  unfold addUsize overflow at h
  split at h
  · cases h; assumption
  · split at h
    · cases h
    · cases h
      exact Nat.le_of_lt_succ (Nat.mod_lt _ (Nat.succ_pos _))

theorem sim_removeScan {stop : Nat} (h : State L (Home L root (own self d)) A T P w) (hs : Shape w.str)
    (hstop : stop ≤ usizeMax) :
    Same L (Home L root (own self d)) A P T (removeScan self stop)
      (M.lift (ArrayString.removeScan w.str stop)) w := by
  induction hn : usizeMax - stop using Nat.strongRecOn generalizing stop w T with
  | _ n ih => ?_
  obtain ⟨w1, T1, e1, s1, g1, k1⟩ := h.selfBoundary (ε := Error) (idx := stop) stable_own hs
  have hs1 : Shape w1.str := by rw [s1]; exact hs
  unfold removeScan ArrayString.removeScan
  refine sim_left e1 s1 k1 (sim_left (m := get) (a := w.str) (w' := w1) (by rw [← s1]; rfl) rfl .refl ?_)
  cases hb : (w.str.asStr : Res Error Bytes) with
  | ok b =>
    show Same L _ _ _ _ (ite _ _ _) (M.lift (ite _ _ _)) _
    split
    · exact sim_pure g1 hs1 rfl
    · by_cases hu : stop < usizeMax
      · rw [if_pos hu, show (addUsize stop 1 : Res Error Nat) = .ok (stop + 1) by
          unfold addUsize; rw [if_pos]; omega]
        have := ih (usizeMax - (stop + 1)) (by omega) g1 hs1 (by omega) rfl
        rw [s1] at this
        exact this
      · rw [if_neg hu, show (addUsize stop 1 : Res Error Nat) = overflow 0 by
          unfold addUsize
          rw [if_neg (by omega), show stop + 1 = usizeMax + 1 by omega, Nat.mod_self]]
        unfold overflow
        split
        · exact sim_lift (r := .panic) g1 hs1
        · obtain ⟨w2, T2, e2, s2, g2, k2⟩ := g1.selfBoundary (ε := Error) (idx := 0) stable_own hs1
          have e0 : ArrayString.removeScan w.str 0 = .ok 0 := by
            unfold ArrayString.removeScan
            simp only [hb, isCharBoundary_zero, if_true]
          refine sim_left (m := M.lift (.ok 0)) (a := 0) (w' := w1) rfl rfl .refl (sim_left e2 s2 k2 ?_)
          show Same L _ _ _ _ _ (M.lift (ArrayString.removeScan w.str 0)) _
          rw [e0]
          exact sim_pure g2 (by rw [s2]; exact hs1) rfl
  | err e => exact sim_lift (r := .err e) g1 hs1
  | panic => exact sim_lift (r := .panic) g1 hs1
  | ub => exact sim_lift (r := .ub) g1 hs1
  | diverge => exact sim_lift (r := .diverge) g1 hs1

theorem sim_remove [ValidCapacity N] {idx : Nat} (h : State L (Home L root (own self d)) A T P w) (hd : useAll d = d)
    (hs : Shape w.str) :
    Same L (Home L root (own self d)) A P T (remove self idx) (ArrayString.remove idx) w := by
  obtain ⟨s, hw⟩ : ∃ s, w.str = s := ⟨_, rfl⟩
  refine sim_right (b := s) (by rw [hw]; rfl) ?_
  obtain ⟨w1, T1, e1, s1, g1, k1⟩ := h.len (ε := Error) stable_own
  have hs1 : Shape w1.str := by rw [s1]; exact hs
  rw [hw] at e1 s1
  refine sim_left e1 (by rw [s1, hw]) k1 (sim_try_bind g1 hs1 fun _ _ => ?_)
  have b1 := sim_tryBoundary (idx := idx) g1 stable_own hs1
  rw [s1] at b1
  refine sim_bind b1 (fun _ _ _ h => h) fun _ _ w2 T2 e2 g2 k2 hs2 _ => ?_
  replace e2 : w2.str = s := by
    have := congrArg Prod.snd e2
    rw [← s1]; exact this.symm
  obtain ⟨w3, T3, e3, s3, g3, k3⟩ := g2.len (ε := Error) stable_own
  have hs3 : Shape w3.str := by rw [s3]; exact hs2
  refine sim_left e3 s3 k3 ?_
  rw [e2]; rw [e2] at s3
  refine sim_lift_bind g3 hs3 fun stop hstop => ?_
  have b3 := sim_removeScan (stop := stop) g3 hs3 (by
    split at hstop
    · cases hstop
      have := usizeMax_ge
      have := s.size.toNat_lt
      subst idx
      show s.size.toNat ≤ _
      omega
    · exact addUsize_le hstop)
  rw [s3] at b3
  refine sim_bind b3 (fun _ _ _ h => h) ?_
  rintro stop _ w4 T4 e4 g4 k4 hs4 rfl
  replace e4 : w4.str = s := by
    have := congrArg Prod.snd e4
    rw [← s3]; exact this.symm
  obtain ⟨w5, T5, e5, s5, g5, k5⟩ := g4.look (ε := Error) stable_own hs4
  have hs5 : Shape w5.str := by rw [s5]; exact hs4
  rw [e4] at s5
  refine sim_left e5 (by rw [s5, e4]) k5 (sim_left (m := get) (a := s) (w' := w5) (by rw [← s5]; rfl) rfl
    .refl ?_)
  refine sim_lift_bind g5 hs5 fun b _ => ?_
  cases Str.get? b idx stop with
  | none => exact sim_lift g5 hs5
  | some sub =>
    simp only
    cases (Str.chars sub).head? with
    | none => exact sim_lift g5 hs5
    | some ch =>
      refine sim_lift_bind g5 hs5 fun stop _ => ?_
      refine sim_bind (Q := fun a b _ => a = b) (sim_callOwn g5 hd fun d' u w6 hd' s6 g6 => ?_) (fun _ _ _ h => h)
        fun _ _ w7 T7 _ g7 _ hs7 _ => sim_pure g7 hs7 rfl
      exact sim_replaceRangeOn g6 hd' A.lt (fun l h1 h2 => absurd h2 (Nat.not_lt_of_le h1))
        (by rw [s6]; exact hs5)

/-! ## Calls that read the string, with any outcome -/

/-- `m` leaves the string alone, has the outcome `r` up to `Z`, and leaves all shared references
usable. -/
def RunsR (L : Laws R) (b : Nat → Tag) (B : Nat → R.St → Prop) (total : Nat) (s : ArrayString N)
    (m : M (World R N) ε α) (T P : Nat → List Tag) (r : Res ε β)
    (Z : α → β → (Nat → List Tag) → Prop) : Prop :=
  ∀ w, w.str = s → Inv L b B total T P w →
    ∃ r' w' T', m w = (r', w') ∧ w'.str = s ∧ Match (fun a b => Z a b T') r' r ∧
      (Settled r → Inv L b B total T' P w' ∧ Grows T T')

section
variable {b : Nat → Tag} {B : Nat → R.St → Prop} {total : Nat} {s : ArrayString N}
  {Z : α → β → (Nat → List Tag) → Prop} {Z' : γ → δ → (Nat → List Tag) → Prop}

theorem runsR_of_runs {m : M (World R N) ε α} {Q : α → (Nat → List Tag) → Prop} {y : β}
    (h : Runs L b B total s m T P Q) (hz : ∀ a T', Q a T' → Z a y T') :
    RunsR L b B total s m T P (.ok y) Z := by
  intro w hs hi
  obtain ⟨a, w1, T1, h1, h2, h3, h4, h5⟩ := h w hs hi
  exact ⟨_, w1, T1, h1, h2, .ok (hz a T1 h5), fun _ => ⟨h3, h4⟩⟩

theorem runsR_weaken {m : M (World R N) ε α} {r : Res ε β} {Z' : α → β → (Nat → List Tag) → Prop}
    (h : RunsR L b B total s m T P r Z) (hz : ∀ a y T', Z a y T' → Z' a y T') :
    RunsR L b B total s m T P r Z' := by
  intro w hs hi
  obtain ⟨r', w1, T1, h1, h2, h3, h4⟩ := h w hs hi
  refine ⟨r', w1, T1, h1, h2, ?_, h4⟩
  cases h3 with
  | ok hq => exact .ok (hz _ _ _ hq)
  | err => exact .err
  | panic => exact .panic
  | ub => exact .ub
  | diverge => exact .diverge

theorem runsR_bind {m : M (World R N) ε γ} {r : Res ε δ} {f : γ → M (World R N) ε α} {g : δ → Res ε β}
    (h : RunsR L b B total s m T P r Z')
    (h' : ∀ a y T', Grows T T' → Z' a y T' → RunsR L b B total s (f a) T' P (g y) Z) :
    RunsR L b B total s (m >>= f) T P (r >>= g) Z := by
  intro w hs hi
  obtain ⟨r', w1, T1, h1, h2, h3, h4⟩ := h w hs hi
  cases h3 with
  | @ok a y hz =>
    obtain ⟨k1, k2⟩ := h4 settled_ok
    obtain ⟨r'', w2, T2, g1, g2, g3, g4⟩ := h' a y T1 k2 hz w1 h2 k1
    exact ⟨r'', w2, T2, by rw [bind_ok h1, g1], g2, g3, fun hr => ⟨(g4 hr).1, k2.trans (g4 hr).2⟩⟩
  | @err e =>
    exact ⟨.err e, w1, T1, by show M.bind m f w = _; simp only [M.bind, h1], h2, .err,
      fun _ => h4 settled_err⟩
  | panic =>
    exact ⟨.panic, w1, T1, by show M.bind m f w = _; simp only [M.bind, h1], h2, .panic,
      fun _ => h4 settled_panic⟩
  | ub =>
    exact ⟨.ub, w1, T1, by show M.bind m f w = _; simp only [M.bind, h1], h2, .ub,
      fun hr => absurd rfl hr.1⟩
  | diverge =>
    exact ⟨.diverge, w1, T1, by show M.bind m f w = _; simp only [M.bind, h1], h2, .diverge,
      fun hr => absurd rfl hr.2⟩

theorem runsR_left {m : M (World R N) ε γ} {f : γ → M (World R N) ε α} {r : Res ε β}
    {Q : γ → (Nat → List Tag) → Prop} (h : Runs L b B total s m T P Q)
    (h' : ∀ a T', Grows T T' → Q a T' → RunsR L b B total s (f a) T' P r Z) :
    RunsR L b B total s (m >>= f) T P r Z :=
  runsR_bind (g := fun _ : Unit => r) (runsR_of_runs (y := ()) (Z := fun a _ => Q a) h fun _ _ h => h)
    fun a _ T' => h' a T'

theorem runsR_lift {r : Res ε α} : RunsR L b B total s (M.lift r) T P r (fun a y _ => a = y) :=
  fun w hs hi => ⟨r, w, T, rfl, hs, Match.rfl, fun _ => ⟨hi, .refl⟩⟩

theorem runsR_lift_bind {r : Res ε γ} {f : γ → M (World R N) ε α} {g : γ → Res ε β}
    (h : ∀ a, r = .ok a → RunsR L b B total s (f a) T P (g a) Z) :
    RunsR L b B total s (M.lift r >>= f) T P (r >>= g) Z := by
  cases r with
  | ok a => exact h a rfl
  | err e => exact fun w hw hi => ⟨_, w, T, rfl, hw, .err, fun _ => ⟨hi, .refl⟩⟩
  | panic => exact fun w hw hi => ⟨_, w, T, rfl, hw, .panic, fun _ => ⟨hi, .refl⟩⟩
  | ub => exact fun w hw hi => ⟨_, w, T, rfl, hw, .ub, fun h => absurd rfl h.1⟩
  | diverge => exact fun w hw hi => ⟨_, w, T, rfl, hw, .diverge, fun h => absurd rfl h.2⟩

theorem runsR_pass {t : Tag} {lo hi : Nat} {body : Tag → M (World R N) ε α} {r : Res ε β}
    (ht : Usable b T t lo hi) (hh : hi ≤ total)
    (hb : ∀ u T' P', Grows T T' → Covers T' u lo hi → RunsR L b B total s (body u) T' P' r Z) :
    RunsR L b B total s (passShared t lo hi body) T P r Z := by
  intro w hs hi'
  obtain ⟨u, w1, h1, h2, h3⟩ := shared_run (ε := ε) (p := true) hi' ht hh
  obtain ⟨r', w2, T2, g1, g2, gm, g3⟩ := hb u _ _ ins_grows ins_covers w1 (h2.trans hs) h3
  by_cases hr : Settled r
  · obtain ⟨g3, g4⟩ := g3 hr
    obtain ⟨w3, k1, k2, k3⟩ := Inv.release (ε := Empty) g3 hh (ins_covers.grow g4)
    refine ⟨r', w3, T2, ?_, k2.trans g2, gm, fun _ => ⟨k3, ins_grows.trans g4⟩⟩
    unfold passShared
    rw [bind_ok h1, protecting_run g1 (gm.settled.2 hr) k1]
  · refine ⟨r', w2, T2, ?_, g2, gm, fun h => absurd h hr⟩
    unfold passShared
    rw [bind_ok h1, protecting_fail g1 (fun h => hr (gm.settled.1 h))]

/-- The bytes `lo .. hi` of the string, as the text argument of the methods of another. -/
def partText (R : Rules) (N : Nat) (b : Nat → Tag) (B : Nat → R.St → Prop) (lo hi : Nat) : Text R N :=
  ⟨fun l => b (lo + (l - (N + 1))), fun l => B (lo + (l - (N + 1))), N + 1 + (hi - lo), by omega⟩

abbrev part (N lo : Nat) (T : Nat → List Tag) : Nat → List Tag := fun l => T (lo + (l - (N + 1)))

theorem shape_new : Shape (.new : ArrayString N) := ⟨by simp [ArrayString.new], Nat.zero_le _⟩

theorem runsR_local {init : ArrayString N} {lo hi : Nat} {body : Tag → M (World R N) ε α}
    {m₀ : M (ArrayString N) ε α} (hh : hi ≤ total)
    (hb : ∀ root v, v.str = init →
      State L (Home L root fun _ => []) (partText R N b B lo hi) (part N lo T) (part N lo P) v →
      Same L (Home L root fun _ => []) (partText R N b B lo hi) (part N lo P) (part N lo T) (body root) m₀ v) :
    RunsR L b B total s (withLocal init lo hi body) T P (m₀.onLocal init)
      (fun x y _ => x = y ∧ Shape x.2) := by
  intro w hs hi'
  let v : World R N := {
    str := init
    mem := fun l => if l ≤ N then R.alloc w.next
      else if l < N + 1 + (hi - lo) then w.mem (lo + (l - (N + 1))) else R.empty
    next := w.next + 1 }
  have hv : State L (Home L w.next fun _ => []) (partText R N b B lo hi) (part N lo T) (part N lo P) v := by
    constructor
    · intro l hl
      show Home L _ _ l (if l ≤ N then _ else _) ∧ L.Below (w.next + 1) (if l ≤ N then _ else _)
      rw [if_pos hl]
      exact ⟨L.alloc_write, L.alloc_below⟩
    · intro l h1 h2
      replace h2 : l < N + 1 + (hi - lo) := h2
      show L.Side _ _ _ _ (if l ≤ N then _ else _) ∧ L.Below (w.next + 1) (if l ≤ N then _ else _)
      rw [if_neg (by omega), if_pos h2]
      obtain ⟨h3, h4⟩ := hi' (lo + (l - (N + 1))) (by omega)
      exact ⟨h3, L.below_mono h4 (Nat.le_succ _)⟩
  obtain ⟨r, v', T', e1, s1, m1, g1⟩ := hb w.next v rfl hv
  have hm := Match.eq m1
  have hres : (r >>= fun a => Res.ok (a, v'.str)) = m₀.onLocal init := by
    unfold M.onLocal
    rw [hm, s1]
    show ((m₀ init).1 >>= fun a => Res.ok (a, (m₀ init).2)) = _
    cases m₀ init with
    | mk x y => cases x <;> rfl
  refine ⟨m₀.onLocal init, {
      str := w.str
      mem := fun l => if lo ≤ l ∧ l < hi then v'.mem (N + 1 + (l - lo)) else w.mem l
      next := max w.next v'.next },
    fun l => if lo ≤ l ∧ l < hi then T' (N + 1 + (l - lo)) else T l, ?_, hs, ?_, fun hr => ?_⟩
  · show ((body w.next v).1 >>= fun a => Res.ok (a, (body w.next v).2.str), (⟨w.str,
      fun l => if lo ≤ l ∧ l < hi then (body w.next v).2.mem (N + 1 + (l - lo)) else w.mem l,
      max w.next (body w.next v).2.next⟩ : World R N)) = _
    rw [e1]
    simp only [hres]
  · unfold M.onLocal
    replace g1 : Settled (m₀ init).1 → _ ∧ _ ∧ Shape (m₀ init).2 := g1
    generalize m₀ init = p at g1
    obtain ⟨x, y⟩ := p
    cases x with
    | ok x => exact .ok ⟨rfl, (g1 settled_ok).2.2⟩
    | err e => exact .err
    | panic => exact .panic
    | ub => exact .ub
    | diverge => exact .diverge
  · have hr' : Settled (m₀ v.str).1 := by
      show Settled (m₀ init).1
      unfold M.onLocal at hr
      generalize m₀ init = p at hr ⊢
      obtain ⟨x, y⟩ := p
      cases x <;> simp_all [Settled]
    obtain ⟨g1, k1, _⟩ := g1 hr'
    refine ⟨fun l hl => ?_, fun l => ?_⟩
    · dsimp only
      split
      next hlo =>
        obtain ⟨h1, h2⟩ := g1.2 (N + 1 + (l - lo)) (by omega)
          (show N + 1 + (l - lo) < N + 1 + (hi - lo) by omega)
        have he : lo + (N + 1 + (l - lo) - (N + 1)) = l := by omega
        simp only [partText, part, he] at h1
        exact ⟨h1, L.below_mono h2 (Nat.le_max_right _ _)⟩
      next =>
        obtain ⟨h1, h2⟩ := hi' l hl
        exact ⟨h1, L.below_mono h2 (Nat.le_max_left _ _)⟩
    · dsimp only
      split
      next hlo =>
        have := k1 (N + 1 + (l - lo)) (by omega)
        have he : lo + (N + 1 + (l - lo) - (N + 1)) = l := by omega
        simp only [part, he] at this
        exact this
      next => exact fun _ h => h

theorem runsR_new {lo hi : Nat} {body : Tag → M (World R N) ε α}
    {m₀ : M (ArrayString N) ε α} (hh : hi ≤ total)
    (hb : ∀ root v, v.str = .new →
      State L (Home L root fun _ => []) (partText R N b B lo hi) (part N lo T) (part N lo P) v →
      Same L (Home L root fun _ => []) (partText R N b B lo hi) (part N lo P) (part N lo T) (body root) m₀ v) :
    RunsR L b B total s (withNew lo hi body) T P (m₀.onLocal .new) (fun x y _ => x = y ∧ Shape x.2) :=
  runsR_local hh hb

theorem State.runR {b : Nat → Tag} {m : M (World R N) ε α} {r : Res ε β}
    (h : State L φ A T P w) (hb : ∀ l, l ≤ N → L.Stable (b l) (φ l)) (hs : Shape w.str)
    (hm : RunsR L (bases b A) (props φ A) A.total w.str m (above N T) (above N P) r Z) :
    Sim L φ A P T m (M.lift r) w Z := by
  obtain ⟨r', w', T', h1, h2, h3, h4⟩ := hm w rfl (h.inv hb)
  exact ⟨r', w', T', h1, h2, h3, fun hr => ⟨.of_inv (h4 hr).1, keeps_of_grows (h4 hr).2, hs⟩⟩

theorem runsR_tryFromStr [ValidCapacity N] {t : Tag} {lo hi : Nat} {string : Bytes} (ht : Usable b T t lo hi)
    (hh : hi ≤ total) (hl : string.length ≤ hi - lo) :
    RunsR L b B total s (tryFromStr t lo hi string) T P (ArrayString.tryFromStr string)
      fun x y _ => x = y ∧ Shape x := by
  refine runsR_pass ht hh fun u T1 P1 k1 c1 => ?_
  refine runsR_bind (runsR_new (m₀ := ArrayString.tryPushStr string) hh ?_) ?_
  rotate_left
  · rintro a _ T' _ ⟨rfl, hz⟩
    exact runsR_of_runs (runs_pure (Q := fun x _ => x = a.2) rfl) (by rintro _ _ rfl; exact ⟨rfl, hz⟩)
  intro root v hv g
  refine sim_callMut (c := []) g rfl rfl fun t self w1 s1 g1 => ?_
  refine sim_tryPushStr g1 rfl (show _ ≤ N + 1 + (hi - lo) by omega) ?_
    (by rw [s1, hv]; exact shape_new)
  exact fun l h1 h2 => Or.inr (c1 _ (by omega) (by omega))

theorem runsR_drained [ValidCapacity N] {start stop : Nat} {slice : Bytes} (hself : Usable b T self 0 (N + 1))
    (hh : N + 1 ≤ total) (hs : s.len ≤ N) (h2 : stop ≤ s.len)
    (hl : slice.length ≤ stop - start) :
    RunsR L b B total s (drained self start stop slice) T P (ArrayString.tryFromStr slice)
      fun x y _ => x = y ∧ Shape x := by
  refine runsR_left (runs_asStr hself hh hs) ?_
  rintro ⟨a, n⟩ T1 k1 ⟨rfl, c1⟩
  exact runsR_left (runs_through c1.usable (by omega) (Nat.zero_le _) h2) fun u T2 k2 c2 =>
    runsR_tryFromStr c2.usable (by omega) hl

end

theorem asStr_take {s : ArrayString N} {b : Bytes} (h : (s.asStr : Res ε Bytes) = .ok b) :
    b = s.array.take s.len := by
  unfold ArrayString.asStr ArrayString.asRefStr ArrayString.asRefBytes debugAssert getUncheckedTo
    Str.fromUtf8Unchecked at h
  by_cases h0 : profile.debugAssertions = true <;> by_cases h1 : s.len ≤ N <;>
    by_cases h2 : s.len ≤ s.array.length <;> by_cases h3 : Str.validUtf8 (s.array.take s.len) = true <;>
    simp [h0, h1, h2, h3, bind, Res.bind] at h
  all_goals exact h.symm

theorem slice_ok {b slice : Bytes} {start stop : Nat}
    (h : (Str.getUnchecked b start stop : Res ε Bytes) = .ok slice) :
    stop ≤ b.length ∧ slice.length ≤ stop - start := by
  unfold Str.getUnchecked at h
  split at h
  next hc =>
    cases h
    refine ⟨hc.2.1, ?_⟩
    simp only [List.length_take]
    omega
  next => cases h

theorem sim_drain [ValidCapacity N] {r : RangeB} (h : State L (Home L root (own self d)) A T P w) (hd : useAll d = d)
    (hs : Shape w.str) :
    Sim L (Home L root (own self d)) A P T (drain self r) (ArrayString.drain r) w
      fun x y _ => x = y ∧ Shape x.inner := by
  obtain ⟨s, hw⟩ : ∃ s, w.str = s := ⟨_, rfl⟩
  have key : ∀ {w' : World R N}, w'.str = s → Shape w'.str := fun h' => by rw [h', ← hw]; exact hs
  refine sim_right (b := s) (by rw [hw]; rfl) ?_
  obtain ⟨w1, T1, e1, s1, g1, k1⟩ := h.rangeEnd (ε := Error) (r := r) stable_own
  rw [hw] at e1
  refine sim_left e1 s1 k1 ?_
  rw [hw] at s1
  refine sim_try_bind g1 (key s1) fun _ _ => ?_
  obtain ⟨w2, T2, e2, s2, g2, k2⟩ := g1.len (ε := Error) stable_own
  refine sim_left e2 s2 k2 ?_
  rw [s1] at s2 ⊢
  refine sim_try_bind g2 (key s2) fun _ _ => ?_
  have b2 := sim_tryBoundary (idx := ArrayString.rangeStart r) g2 stable_own (key s2)
  rw [s2] at b2
  refine sim_bind b2 (fun _ _ _ h => h) fun _ _ w3 T3 e3 g3 k3 _ _ => ?_
  replace e3 : w3.str = s := by
    have := congrArg Prod.snd e3
    rw [← s2]; exact this.symm
  have b3 := sim_tryBoundary (idx := ArrayString.rangeEnd r s.len) g3 stable_own (key e3)
  rw [e3] at b3
  refine sim_bind b3 (fun _ _ _ h => h) fun _ _ w4 T4 e4 g4 k4 _ _ => ?_
  replace e4 : w4.str = s := by
    have := congrArg Prod.snd e4
    rw [← e3]; exact this.symm
  obtain ⟨w5, T5, e5, s5, g5, k5⟩ := g4.len (ε := Error) stable_own
  refine sim_left e5 s5 k5 ?_
  rw [e4] at s5 ⊢
  refine sim_lift_bind g5 (key s5) fun _ _ => ?_
  refine sim_left (m := get) (a := s) (w' := w5) (by rw [← s5]; rfl) rfl .refl ?_
  refine sim_lift_bind g5 (key s5) fun b hb => ?_
  obtain ⟨w6, T6, e6, s6, g6, k6⟩ := g5.selfBoundary (ε := Error) (idx := ArrayString.rangeStart r)
    stable_own (key s5)
  refine sim_left e6 s6 k6 ?_
  rw [s5] at s6
  refine sim_lift_bind g6 (key s6) fun _ _ => ?_
  obtain ⟨w7, T7, e7, s7, g7, k7⟩ := g6.selfBoundary (ε := Error) (idx := ArrayString.rangeEnd r s.len)
    stable_own (key s6)
  refine sim_left e7 s7 k7 ?_
  rw [s6] at s7
  refine sim_lift_bind g7 (key s7) fun _ _ => ?_
  refine sim_lift_bind g7 (key s7) fun slice hslice => ?_
  obtain ⟨hl, hl'⟩ := slice_ok hslice
  rw [(asStr_ok hb).1] at hl
  have b7 := g7.runR (b := fun _ => self) stable_own (key s7) (runsR_drained (slice := slice)
    (start := ArrayString.rangeStart r) (stop := ArrayString.rangeEnd r s.len)
    (usable_self (fun _ _ => rfl)) A.lt (key s7).2 (by rw [s7]; exact hl) hl')
  refine sim_bind (sim_tryM (ε' := Error) b7) (fun _ _ _ h => h) ?_
  rintro x _ w8 T8 e8 g8 k8 hs8 ⟨rfl, hx⟩
  refine sim_bind (Q := fun a b _ => a = b) (sim_callOwn g8 hd fun d' u w6 hd' s6 g6 => ?_)
    (fun _ _ _ h => h) fun _ _ w9 T9 _ g9 _ hs9 _ => sim_pure g9 hs9 ⟨rfl, hx⟩
  exact sim_replaceRangeOn g6 hd' A.lt (fun l h1 h2 => absurd h2 (Nat.not_lt_of_le h1))
    (by rw [s6]; exact hs8)

theorem sim_splitOff [ValidCapacity N] {at_ : Nat} (h : State L (Home L root (own self d)) A T P w) (hd : useAll d = d)
    (hs : Shape w.str) :
    Sim L (Home L root (own self d)) A P T (splitOff self at_) (ArrayString.splitOff at_) w
      fun x y _ => x = y ∧ Shape x := by
  refine sim_bind (Q := fun x y _ => x = y ∧ Shape x.inner) (sim_callOwn h hd fun d' u w1 hd' s1 g1 => ?_)
    (fun _ _ _ h => h) ?_
  · exact sim_drain g1 hd' (by rw [s1]; exact hs)
  · rintro a _ w2 T2 _ g2 _ hs2 ⟨rfl, ha⟩
    exact sim_pure g2 hs2 ⟨rfl, ha⟩

/-! ## `retain` -/

/-- The loop of `retain` on the plain string. -/
def fill {κ : Type} (f : ArrayString.Pred κ) : κ → List Char → M (ArrayString N) ε κ
  | q, [] => pure q
  | q, c :: cs =>
    match f q c with
    | none => M.lift .panic
    | some (false, q) => fill f q cs
    | some (true, q) => do
      let r ← M.attempt (ArrayString.tryPush c)
      match r with
      | .ok () => fill f q cs
      | .error _ => pure q

theorem fill_eq {κ : Type} (f : ArrayString.Pred κ) : ∀ (cs : List Char) (q : κ) (out : ArrayString N),
    ((fill f q cs : M (ArrayString N) ε κ).onLocal out) =
      (ArrayString.fromCharsTruncateLoop (ArrayString.filterIter f) (cs, q) out >>= fun x =>
        .ok (x.2.2, x.1))
  | [], q, out => by
    unfold ArrayString.fromCharsTruncateLoop
    rfl
  | c :: cs, q, out => by
    unfold fill
    cases hf : f q c with
    | none =>
      unfold ArrayString.fromCharsTruncateLoop
      simp only [ArrayString.filterIter, ArrayString.filterNext, hf]
      rfl
    | some x =>
      obtain ⟨k, q'⟩ := x
      cases k with
      | false =>
        have := fill_eq f cs q' out
        unfold ArrayString.fromCharsTruncateLoop at this ⊢
        simp only [ArrayString.filterIter, ArrayString.filterNext, hf] at this ⊢
        exact this
      | true =>
        unfold ArrayString.fromCharsTruncateLoop
        simp only [ArrayString.filterIter, ArrayString.filterNext, hf]
        have hb : ∀ (g : Except OutOfBounds Unit → M (ArrayString N) ε κ),
            (M.attempt (ArrayString.tryPush c) >>= g) out = _ := fun g =>
          bind_attempt (r := (ArrayString.tryPush c out).1) (w' := (ArrayString.tryPush c out).2) rfl
        unfold M.onLocal
        rw [hb]
        generalize ArrayString.tryPush c out = p
        obtain ⟨r, out'⟩ := p
        cases r with
        | ok u => exact fill_eq f cs q' out'
        | err e => rfl
        | panic => rfl
        | ub => rfl
        | diverge => rfl

def sizes (cs : List Char) : Nat := (cs.map Str.lenUtf8).sum

theorem sim_retainLoop [ValidCapacity N] {κ : Type} {f : ArrayString.Pred κ} {t : Tag} {n : Nat} {q : κ} {pos : Nat}
    {cs : List Char} (h : State L (Home L root fun _ => []) A T P w) (hs : Shape w.str)
    (ht : Usable A.b T t (N + 1) (N + 1 + n)) (hn : N + 1 + n ≤ A.total) (hp : pos + sizes cs ≤ n) :
    Same L (Home L root fun _ => []) A P T (retainLoop t root f q pos cs : M _ ε _) (fill f q cs) w := by
  induction cs generalizing q pos w T with
  | nil => exact sim_pure h hs rfl
  | cons c cs ih =>
    have hz : sizes (c :: cs) = Str.lenUtf8 c + sizes cs := by simp [sizes]
    rw [hz] at hp
    obtain ⟨_, w1, T1, e1, s1, g1, k1, _⟩ := h.run stable_home
      (runs_read (ε := ε) (lo := N + 1 + pos) (hi := N + 1 + pos + Str.lenUtf8 c) (t := t)
        (usable_text (fun l h1 h2 => ht l (by omega) (by omega)) (by omega)) (by omega))
    have hs1 : Shape w1.str := by rw [s1]; exact hs
    have ht1 := k1.usable ht (by omega)
    unfold retainLoop fill
    refine sim_left e1 s1 k1 ?_
    cases f q c with
    | none => exact sim_lift g1 hs1
    | some x =>
      obtain ⟨k, q'⟩ := x
      cases k with
      | false => exact ih g1 hs1 ht1 (by omega)
      | true =>
        have hc : Same L (Home L root fun _ => []) A P T1
            (M.attempt (callMut root fun out => tryPush out c) : M _ ε _)
            (M.attempt (ArrayString.tryPush c)) w1 :=
          sim_attempt (sim_callMut (c := []) g1 rfl rfl fun t u w2 s2 g2 =>
            sim_tryPush g2 rfl (by rw [s2]; exact hs1))
        refine sim_bind hc (fun _ _ _ h => h) ?_
        rintro r _ w3 T3 _ g3 k3 hs3 rfl
        cases r with
        | ok u => exact ih g3 hs3 (k3.usable ht1 (by omega)) (by omega)
        | error e => exact sim_pure g3 hs3 rfl

theorem sizes_chars {b : Bytes} (h : Str.validUtf8 b = true) : sizes (Str.chars b) = b.length := by
  obtain ⟨cs, rfl⟩ := (validUtf8_iff b).1 h
  rw [chars_utf8]
  induction cs with
  | nil => rfl
  | cons c cs ih => simp_all [sizes, Str.lenUtf8, Spec.byteLen]

theorem runsR_retained [ValidCapacity N] {κ : Type} {f : ArrayString.Pred κ} {q : κ} {b : Nat → Tag}
    {B : Nat → R.St → Prop} {total : Nat} {s : ArrayString N} (hself : Usable b T self 0 (N + 1))
    (hh : N + 1 ≤ total) (hs : s.len ≤ N) :
    RunsR L b B total s (retained self f q : M _ ε _) T P
      (s.asStr >>= fun bytes => (fill f q (Str.chars bytes)).onLocal .new) fun x y _ => x = y ∧ Shape x.2 := by
  refine runsR_left (runs_asStr hself hh hs) ?_
  rintro ⟨a, n⟩ T1 k1 ⟨rfl, c1⟩
  refine runsR_left runs_get fun s' T3 k3 e => ?_
  subst s'
  refine runsR_lift_bind fun bytes hb => ?_
  obtain ⟨hl, hv⟩ := asStr_ok hb
  refine runsR_left (runs_through (c1.grow k3).usable (by omega) (Nat.le_refl _) (Nat.le_refl _)) fun u T2 k2 c2 => ?_
  refine runsR_new (by omega) fun root v hv' g => ?_
  exact sim_retainLoop (n := s.len) g (by rw [hv']; exact shape_new)
    (fun l h1 h2 => Or.inr (c2 _ (by omega) (by omega))) (show _ ≤ N + 1 + (s.len - 0) by omega)
    (by rw [sizes_chars hv]; omega)

theorem sim_retain [ValidCapacity N] {κ : Type} {f : ArrayString.Pred κ} {q : κ}
    (h : State L (Home L root (own self d)) A T P w) (hd : useAll d = d) (hs : Shape w.str) :
    Same L (Home L root (own self d)) A P T (retain self f q : M _ ε _) (ArrayString.retain f q) w := by
  refine sim_right (b := w.str) rfl ?_
  have b1 := h.runR (b := fun _ => self) stable_own hs (runsR_retained (f := f) (q := q) (ε := ε)
    (usable_self (fun _ _ => rfl)) A.lt hs.2)
  simp only [fill_eq] at b1
  have hp : ∀ g : ArrayString N × (List Char × κ) → M (ArrayString N) ε κ,
      (M.lift w.str.asStr >>= fun b =>
        M.lift (ArrayString.fromCharsTruncate (ArrayString.filterIter f) (Str.chars b, q)) >>= g) =
      (M.lift (w.str.asStr >>= fun b =>
        ArrayString.fromCharsTruncate (ArrayString.filterIter f) (Str.chars b, q)) >>= g) := by
    intro g
    cases (w.str.asStr : Res ε Bytes) <;> rfl
  rw [show (w.str.asStr >>= fun b => ArrayString.fromCharsTruncateLoop (ArrayString.filterIter f) (Str.chars b, q)
      (.new : ArrayString N) >>= fun x => Res.ok (x.2.2, x.1)) =
    ((w.str.asStr >>= fun b => ArrayString.fromCharsTruncateLoop (ArrayString.filterIter f) (Str.chars b, q)
      (.new : ArrayString N)) >>= fun x => (.ok (x.2.2, x.1) : Res ε _)) from by
        cases (w.str.asStr : Res ε Bytes) <;> rfl] at b1
  have b2 : Sim L (Home L root (own self d)) A P T (retained self f q : M _ ε _)
      (M.lift (w.str.asStr >>= fun b =>
        ArrayString.fromCharsTruncate (ArrayString.filterIter f) (Str.chars b, q))) w
      (fun x y _ => x.1 = y.2.2 ∧ x.2 = y.1 ∧ Shape x.2) := by
    unfold ArrayString.fromCharsTruncate
    generalize (w.str.asStr >>= fun b => ArrayString.fromCharsTruncateLoop (ArrayString.filterIter f)
      (Str.chars b, q) (.new : ArrayString N)) = r at b1
    obtain ⟨r', w1, T1, e1, s1, m1, g1⟩ := b1
    refine ⟨r', w1, T1, e1, s1, ?_, fun hr => g1 ?_⟩
    · cases r with
      | ok y =>
        replace m1 : Match _ r' (.ok (y.2.2, y.1)) := m1
        cases m1 with
        | ok hx =>
          obtain ⟨rfl, hz⟩ := hx
          exact .ok ⟨rfl, rfl, hz⟩
      | err e => cases m1; exact .err
      | panic => cases m1; exact .panic
      | ub => cases m1; exact .ub
      | diverge => cases m1; exact .diverge
    · cases r <;> simp_all [Settled, bind, Res.bind, M.lift]
  refine (hp _) ▸ sim_bind b2 (fun _ _ _ h => h) ?_
  rintro ⟨q', out⟩ ⟨_, cs, _⟩ w1 T1 _ g1 k1 hs1 ⟨rfl, rfl, hz⟩
  obtain ⟨w2, e2, s2, _, g2⟩ := g1.touch (ε := ε) (lo := 0) (hi := N + 1) (f := R.write self)
    (φ' := Home L root (own self d)) (Nat.le_refl _)
    (fun l st _ _ hm hb => by
      obtain ⟨st', p1, p2, p3⟩ := Top.write hm hb
      refine ⟨st', p1, ?_, p3⟩
      rw [show useAll (own self d l) = own self d l from use_own hd] at p2
      exact p2)
    (fun l st _ _ h => h)
  refine sim_left (a := ()) e2 s2 .refl ?_
  refine ⟨.ok q', { w2 with str := out }, T1, rfl, rfl, .ok rfl, fun _ => ⟨g2.put _, .refl, hz⟩⟩

end Verif.Borrow
