import Verif.Model.BorrowOps
import Verif.Proofs.BorrowCalls

/-!
# Every call of a history behaves with tags as it does without

For `Props/BorrowOps.lean`.
-/

namespace Verif.Borrow
open Spec

variable {R : Rules} {L : Laws R} {N : Nat} {ε ε' α β γ δ : Type}
variable {φ φ' : Nat → R.St → Prop} {A : Text R N} {T P : Nat → List Tag} {w : World R N}
variable {root caller self arg : Tag} {c : Nat → List Ref} {d q : List Ref}

/-! ## Outcomes -/

theorem sim_call [Verif.Kind ε] {m : M (World R N) ε α} {m₀ : M (ArrayString N) ε α} {out : α → Out}
    (h : Same L φ A P T m m₀ w) : Same L φ A P T (call m out) (Verif.call m₀ out) w :=
  sim_bind (Q := fun a b _ => a = b) (sim_mapErr h) (fun _ _ _ h => h)
    fun _ _ _ _ _ g _ hs hq => sim_pure g hs (by rw [hq])

theorem sim_method [Verif.Kind ε] {m : Tag → M (World R N) ε α} {m₀ : M (ArrayString N) ε α} {out : α → Out}
    (h : State L (Home L root fun _ => q) A T P w)
    (hb : ∀ d u w', useAll d = d → w'.str = w.str → State L (Home L root (own u d)) A T P w' →
      Same L (Home L root (own u d)) A P T (m u) m₀ w')
    (hc : tagOf root q = caller := by rfl) (hq : useAll q = q := by rfl) :
    Same L (Home L root fun _ => q) A P T (method caller m out) (Verif.call m₀ out) w :=
  sim_call (sim_callMut h hc hq fun t u w' s g => hb (⟨t, .used, false⟩ :: q) u w'
    (by rw [useAll_cons, hq]; rfl) s g)

/-- Write through the reference to the whole string. -/
theorem State.store (h : State L (Home L root fun _ => q) A T P w)
    (hc : tagOf root q = caller := by rfl) (hq : useAll q = q := by rfl) :
    ∃ w', (writeAt caller 0 (N + 1) : M (World R N) ε Unit) w = (.ok (), w') ∧ w'.str = w.str ∧
      State L (Home L root fun _ => q) A T P w' := by
  obtain ⟨w', e, s, _, g⟩ := h.touch (ε := ε) (lo := 0) (hi := N + 1) (f := R.write caller)
    (φ' := Home L root fun _ => q) (Nat.le_refl _)
    (fun l st _ _ hm hb => by
      have := Top.write hm hb
      rwa [hc, hq] at this) (fun l st _ _ h => h)
  exact ⟨w', e, s, g⟩

theorem sim_construct [Verif.Kind ε] {make : M (World R N) ε (ArrayString N)} {r : Res ε β}
    {get : β → ArrayString N}
    (h : Sim L (Home L root fun _ => q) A P T make (M.lift r) w fun x y _ => x = get y ∧ Shape x)
    (hc : tagOf root q = caller := by rfl) (hq : useAll q = q := by rfl) :
    Same L (Home L root fun _ => q) A P T (construct caller make) (Verif.construct r get) w := by
  refine sim_bind (m₀ := M.lift (r.mapErr Verif.Kind.kind)) (sim_mapErr (f := Verif.Kind.kind) h) (fun _ _ _ h => h) ?_
  rintro x y w1 T1 _ g1 _ hs1 ⟨rfl, hx⟩
  obtain ⟨w2, e2, s2, g2⟩ := g1.store (ε := Failure) hc hq
  refine sim_left (a := ()) e2 s2 .refl ?_
  exact ⟨.ok .unit, { w2 with str := get y }, T1, rfl, rfl, .ok rfl, fun _ => ⟨g2.put _, .refl, hx⟩⟩

theorem sim_query [Verif.Kind ε] {b : Nat → Tag} {m : M (World R N) ε Unit} {f : ArrayString N → Res ε α} {out : α → Out}
    {Q : Unit → (Nat → List Tag) → Prop}
    (h : State L φ A T P w) (hb : ∀ l, l ≤ N → L.Stable (b l) (φ l)) (hs : Shape w.str)
    (hm : Runs L (bases b A) (props φ A) A.total w.str m (above N T) (above N P) Q) :
    Same L φ A P T (query m f out) (Verif.query f out) w := by
  have hc : Same L φ A P T (query m f out) (Verif.call (M.lift (f w.str)) out) w := by
    refine sim_call (m₀ := M.lift (f w.str)) ?_
    obtain ⟨_, w1, T1, e1, s1, g1, k1, _⟩ := h.run hb hm
    refine sim_left (a := ()) e1 s1 k1 (sim_left (m := get) (a := w.str) (w' := w1) (by rw [← s1]; rfl) rfl .refl ?_)
    exact sim_lift g1 (by rw [s1]; exact hs)
  exact sim_right (m₀ := M.self) (b := w.str) rfl hc

/-! ## Constructors -/

section
variable {b : Nat → Tag} {B : Nat → R.St → Prop} {total : Nat} {s : ArrayString N}
  {Z : α → β → (Nat → List Tag) → Prop}

theorem runsR_res {m : M (World R N) ε α} {r : Res ε γ} {g : γ → β}
    (h : RunsR L b B total s m T P (r >>= fun y => .ok (g y)) Z) :
    RunsR L b B total s m T P r (fun x y T' => Z x (g y) T') := by
  intro w hs hi
  obtain ⟨r', w', T', h1, h2, h3, h4⟩ := h w hs hi
  refine ⟨r', w', T', h1, h2, ?_, fun hr => h4 ?_⟩
  · cases r with
    | ok y =>
      replace h3 : Match _ r' (.ok (g y)) := h3
      cases h3 with
      | ok hq => exact .ok hq
    | err e => cases h3; exact .err
    | panic => cases h3; exact .panic
    | ub => cases h3; exact .ub
    | diverge => cases h3; exact .diverge
  · cases r <;> simp_all [Settled, bind, Res.bind]

/-- A new string, made by `body`. -/
theorem runsR_make {lo hi : Nat} {body : Tag → M (World R N) ε Unit} {m₀ : M (ArrayString N) ε Unit}
    {init : ArrayString N} {r : Res ε γ} {g : γ → ArrayString N}
    (he : m₀.onLocal init = r >>= fun y => .ok ((), g y)) (hh : hi ≤ total)
    (hb : ∀ root v, v.str = init →
      State L (Home L root fun _ => []) (partText R N b B lo hi) (part N lo T) (part N lo P) v →
      Same L (Home L root fun _ => []) (partText R N b B lo hi) (part N lo P) (part N lo T) (body root) m₀ v) :
    RunsR L b B total s (do
      let r ← withLocal init lo hi body
      pure r.2 : M (World R N) ε (ArrayString N)) T P r (fun x y _ => x = g y ∧ Shape x) := by
  have h1 := runsR_local (s := s) hh hb
  rw [he] at h1
  have h2 := runsR_bind (f := fun x : Unit × ArrayString N => pure x.2) (g := Res.ok)
    (Z := fun x y _ => x = g y ∧ Shape x) (runsR_res h1) ?_
  · have e : (r >>= Res.ok) = r := by cases r <;> rfl
    rw [e] at h2
    exact h2
  · rintro x y T' _ ⟨rfl, hz⟩
    exact runsR_of_runs (runs_pure (Q := fun x _ => x = g y) rfl) (by rintro _ _ rfl; exact ⟨rfl, hz⟩)

end

theorem sim_feed {body : α → M (World R N) ε Bool} {body₀ : α → M (ArrayString N) ε Bool} {l : Script α}
    (h : State L φ A T P w) (hs : Shape w.str)
    (hb : ∀ a, some a ∈ l → ∀ w' T', State L φ A T' P w' → Shape w'.str → Keeps N T T' →
      Same L φ A P T' (body a) (body₀ a) w') :
    Same L φ A P T (feed body l) (feed body₀ l) w := by
  induction l generalizing w T with
  | nil => exact sim_pure h hs rfl
  | cons x l ih =>
    cases x with
    | none => exact sim_lift h hs
    | some a =>
      refine sim_bind (Q := fun a b _ => a = b) (hb a (by simp) w T h hs .refl) (fun _ _ _ h => h) ?_
      rintro k _ w1 T1 _ g1 k1 hs1 rfl
      cases k with
      | false => exact sim_pure g1 hs1 rfl
      | true =>
        refine ih g1 hs1 ?_
        intro a ha w' T' g hs' hk
        exact hb a (by simp [ha]) w' T' g hs' (k1.trans hk)

/-- What one round of a loop gives. -/
theorem feed_cons {σ : Type} {body : α → M σ ε Bool} {a : α} {l : Script α} {out : σ} :
    (feed body (some a :: l)).onLocal out =
      match body a out with
      | (.ok true, out) => (feed body l).onLocal out
      | (.ok false, out) => .ok ((), out)
      | (.err e, _) => .err e
      | (.panic, _) => .panic
      | (.ub, _) => .ub
      | (.diverge, _) => .diverge := by
  show (M.bind (body a) fun k => if k = true then feed body l else pure ()).onLocal out = _
  unfold M.onLocal M.bind
  generalize body a out = p
  obtain ⟨r, o⟩ := p
  cases r with
  | ok k => cases k <;> rfl
  | err e => rfl
  | panic => rfl
  | ub => rfl
  | diverge => rfl

theorem feed_eq {body : α → M (ArrayString N) ε Bool}
    {F : Script α → ArrayString N → Res ε (ArrayString N × Script α)}
    (h0 : ∀ out, F [] out = .ok (out, [])) (h1 : ∀ l out, F (none :: l) out = .panic)
    (h2 : ∀ a l out, F (some a :: l) out =
      match body a out with
      | (.ok true, out) => F l out
      | (.ok false, out) => .ok (out, l)
      | (.err e, _) => .err e
      | (.panic, _) => .panic
      | (.ub, _) => .ub
      | (.diverge, _) => .diverge) (l : Script α) (out : ArrayString N) :
    (feed body l).onLocal out = F l out >>= fun x => .ok ((), x.1) := by
  induction l generalizing out with
  | nil => rw [h0]; rfl
  | cons x l ih =>
    cases x with
    | none => rw [h1]; rfl
    | some a =>
      rw [feed_cons, h2]
      generalize body a out = p
      obtain ⟨r, o⟩ := p
      cases r with
      | ok k => cases k with
        | true => exact ih o
        | false => rfl
      | err e => rfl
      | panic => rfl
      | ub => rfl
      | diverge => rfl

theorem feed_decoded {body : Option Char → M (ArrayString N) ε Bool}
    {F : Option UInt16 × List UInt16 → ArrayString N → Res ε (ArrayString N)}
    (h : ∀ k out, F k out =
      match Str.decodeUtf16Next k with
      | .done _ => .ok out
      | .panic => .panic
      | .item c k =>
        match body c out with
        | (.ok true, out) => F k out
        | (.ok false, out) => .ok out
        | (.err e, _) => .err e
        | (.panic, _) => .panic
        | (.ub, _) => .ub
        | (.diverge, _) => .diverge) (k : Option UInt16 × List UInt16) (out : ArrayString N) :
    (feed body (decoded k)).onLocal out = F k out >>= fun x => .ok ((), x) := by
  induction hn : k.2.length + (if k.1.isSome then 1 else 0) using Nat.strongRecOn generalizing k out with
  | _ n ih =>
    rw [h, decoded]
    split
    next c k' hk =>
      rw [feed_cons]
      simp only [hk]
      generalize body c out = p
      obtain ⟨r, o⟩ := p
      cases r with
      | ok b => cases b with
        | true => exact ih _ (by rw [← hn]; exact decode_less hk) k' o rfl
        | false => rfl
      | err e => rfl
      | panic => rfl
      | ub => rfl
      | diverge => rfl
    next k' hk => simp only [hk]; rfl
    next hk => simp only [hk]; rfl

theorem bind_run {σ : Type} {m : M σ ε α} {f : α → M σ ε β} {x : σ} :
    (m >>= f) x =
      match m x with
      | (.ok a, x) => f a x
      | (.err e, x) => (.err e, x)
      | (.panic, x) => (.panic, x)
      | (.ub, x) => (.ub, x)
      | (.diverge, x) => (.diverge, x) := by
  show M.bind m f x = _
  unfold M.bind
  generalize m x = p
  obtain ⟨r, o⟩ := p
  cases r <;> rfl

theorem attempt_run {σ : Type} {m : M σ ε α} {f : Except ε α → M σ ε' β} {x : σ} :
    (M.attempt m >>= f) x =
      match m x with
      | (.ok a, x) => f (.ok a) x
      | (.err e, x) => f (.error e) x
      | (.panic, x) => (.panic, x)
      | (.ub, x) => (.ub, x)
      | (.diverge, x) => (.diverge, x) := by
  show M.bind (M.attempt m) f x = _
  unfold M.bind M.attempt
  generalize m x = p
  obtain ⟨r, o⟩ := p
  cases r <;> rfl

theorem le_widest {size : α → Nat} {a : α} : ∀ {l : Script α}, some a ∈ l → size a ≤ widest size l
  | none :: l, h => by
    unfold widest
    exact le_widest (l := l) (by simpa using h)
  | some b :: l, h => by
    unfold widest
    rcases List.mem_cons.1 h with h | h
    · cases h; exact Nat.le_max_left _ _
    · exact Nat.le_trans (le_widest h) (Nat.le_max_right _ _)

section
variable {b : Nat → Tag} {B : Nat → R.St → Prop} {total : Nat} {s : ArrayString N}

theorem runsR_new_ : RunsR L b B total s (do
    let r ← withNew 0 0 fun _ => (pure () : M (World R N) ε Unit)
    pure r.2) T P (.ok ArrayString.new) (fun x y _ => x = y ∧ Shape x) :=
  runsR_make (m₀ := pure ()) (g := id) rfl (Nat.zero_le _) fun _ _ hv g =>
    sim_pure g (by rw [hv]; exact shape_new) rfl

theorem runsR_fromStrTruncate [ValidCapacity N] {string : Bytes} (ht : Usable b T arg (N + 1) (N + 1 + string.length))
    (hh : N + 1 + string.length ≤ total) :
    RunsR L b B total s (fromStrTruncate arg string : M _ ε _) T P (ArrayString.fromStrTruncate string)
      (fun x y _ => x = y ∧ Shape x) := by
  refine runsR_pass ht hh fun u T1 P1 k1 c1 => ?_
  refine runsR_make (m₀ := ArrayString.pushStrTruncate string) (g := id) ?_ hh fun root v hv g => ?_
  · unfold ArrayString.fromStrTruncate
    cases (ArrayString.pushStrTruncate string : M (ArrayString N) ε Unit).onLocal .new <;> rfl
  · refine sim_callMut (c := []) g rfl rfl fun t self w1 s1 g1 => ?_
    refine sim_pushStrTruncate g1 rfl (show _ ≤ N + 1 + (N + 1 + string.length - (N + 1)) by omega) ?_
      (by rw [s1, hv]; exact shape_new)
    exact fun l h1 h2 => Or.inr (c1 _ (by omega) (by omega))

theorem usable_part {k : Nat} (ht : Usable b T arg (N + 1) (N + 1 + k)) {T' : Nat → List Tag} {n : Nat}
    (hk : Keeps N (part N (N + 1) T) T') (hn : n ≤ k) :
    Usable (partText R N b B (N + 1) (N + 1 + k)).b T' arg (N + 1) (N + 1 + n) := by
  intro l h1 h2
  have he : N + 1 + (l - (N + 1)) = l := by omega
  refine (ht l h1 (by omega)).imp (fun h => ?_) fun h => hk l h1 ?_
  · simpa [partText, he] using h
  · simpa [part, he] using h

theorem runsR_tryFromIterator [ValidCapacity N] {l : Script Bytes}
    (ht : Usable b T arg (N + 1) (N + 1 + widest List.length l)) (hh : N + 1 + widest List.length l ≤ total) :
    RunsR L b B total s (tryFromIterator arg l) T P (ArrayString.tryFromIterator scriptIter l)
      (fun x y _ => x = y.1 ∧ Shape x) := by
  refine runsR_make (m₀ := feed (fun s => do ArrayString.tryPushStr s; pure true) l)
    (feed_eq (fun out => ?_) (fun l out => ?_) (fun a l out => ?_) l .new) hh fun root v hv g => ?_
  · rw [ArrayString.tryFromIteratorLoop]; rfl
  · rw [ArrayString.tryFromIteratorLoop]; rfl
  · rw [ArrayString.tryFromIteratorLoop]
    rw [bind_run]
    simp only [scriptIter]
    generalize ArrayString.tryPushStr a out = p
    obtain ⟨r, o⟩ := p
    cases r <;> rfl
  · refine sim_feed g (by rw [hv]; exact shape_new) fun a ha w1 T1 g1 hs1 k1 => ?_
    have hw := le_widest (size := List.length) ha
    refine sim_bind (Q := fun a b _ => a = b) (sim_callMut (c := []) g1 rfl rfl fun t u w2 s2 g2 => ?_)
      (fun _ _ _ h => h) fun _ _ _ _ _ g _ hs _ => sim_pure g hs rfl
    exact sim_tryPushStr g2 rfl (show _ ≤ N + 1 + (N + 1 + widest List.length l - (N + 1)) by omega)
      (usable_part ht k1 hw) (by rw [s2]; exact hs1)

theorem runsR_fromIteratorTruncate [ValidCapacity N] {l : Script ArrayString.AsRefTwice}
    (ht : Usable b T arg (N + 1) (N + 1 + widest (fun s => max s.first.length s.second.length) l))
    (hh : N + 1 + widest (fun s => max s.first.length s.second.length) l ≤ total) :
    RunsR L b B total s (fromIteratorTruncate arg l : M _ ε _) T P
      (ArrayString.fromIteratorTruncate scriptIter l) (fun x y _ => x = y.1 ∧ Shape x) := by
  refine runsR_make (m₀ := feed (fun s => do
      let r ← M.attempt (ArrayString.tryPushStr s.first)
      match r with
      | .ok () => pure true
      | .error _ => do
        ArrayString.pushStrTruncate s.second
        pure false) l)
    (feed_eq (fun out => ?_) (fun l out => ?_) (fun a l out => ?_) l .new) hh fun root v hv g => ?_
  · rw [ArrayString.fromIteratorTruncateLoop]; rfl
  · rw [ArrayString.fromIteratorTruncateLoop]; rfl
  · rw [ArrayString.fromIteratorTruncateLoop, attempt_run]
    simp only [scriptIter]
    generalize ArrayString.tryPushStr a.first out = p
    obtain ⟨r, o⟩ := p
    cases r with
    | err e =>
      simp only [bind_run]
      generalize (ArrayString.pushStrTruncate a.second : M (ArrayString N) ε Unit) o = p
      obtain ⟨r, o⟩ := p
      cases r <;> rfl
    | ok _ => rfl
    | panic => rfl
    | ub => rfl
    | diverge => rfl
  · refine sim_feed g (by rw [hv]; exact shape_new) fun a ha w1 T1 g1 hs1 k1 => ?_
    have hw := le_widest (size := fun s : ArrayString.AsRefTwice => max s.first.length s.second.length) ha
    generalize widest (fun s : ArrayString.AsRefTwice => max s.first.length s.second.length) l = k at *
    have h1 := usable_part (R := R) (B := B) ht k1 (n := a.first.length) (by omega)
    obtain ⟨u, w2, e2, s2, g2⟩ := g1.two (ε := ε) (fun _ _ => rfl)
    obtain ⟨t, w3, T3, e3, s3, g3, k3, c3⟩ := g2.run (b := fun _ => u)
      (stable_home (c := fun _ => [⟨u, .raw, false⟩]))
      (runs_through (ε := ε) (usable_text h1 (by omega)) (show _ ≤ N + 1 + (N + 1 + k - (N + 1)) by omega)
        (Nat.le_refl _) (Nat.le_refl _))
    refine sim_left e2 s2 .refl (sim_left e3 s3 k3 ?_)
    have hs3 : Shape w3.str := by rw [s3, s2]; exact hs1
    refine sim_bind (Q := fun a b _ => a = b) (φ := Home L root fun _ => [])
      (sim_attempt (sim_passSelf g3 rfl fun u w4 s4 g4 => ?_)) (fun _ _ _ h => h) ?_
    · exact sim_tryPushStr g4 rfl (show _ ≤ N + 1 + (N + 1 + k - (N + 1)) by omega) c3.usable
        (by rw [s4]; exact hs3)
    · rintro r _ w4 T4 _ g4 k4 hs4 rfl
      cases r with
      | ok _ => exact sim_pure g4 hs4 rfl
      | error e =>
        refine sim_bind (Q := fun a b _ => a = b) (sim_callMut (c := []) g4 rfl rfl fun t u w5 s5 g5 => ?_)
          (fun _ _ _ h => h) fun _ _ _ _ _ g _ hs _ => sim_pure g hs rfl
        exact sim_pushStrTruncate g5 rfl (show _ ≤ N + 1 + (N + 1 + k - (N + 1)) by omega)
          (usable_part ht (k1.trans (k3.trans k4)) (by omega)) (by rw [s5]; exact hs4)
theorem runsR_tryFromChars [ValidCapacity N] {l : Script Char} :
    RunsR L b B total s (tryFromChars l) T P (ArrayString.tryFromChars scriptIter l)
      (fun x y _ => x = y.1 ∧ Shape x) := by
  refine runsR_make (m₀ := feed (fun c => do ArrayString.tryPush c; pure true) l)
    (feed_eq (fun out => ?_) (fun l out => ?_) (fun a l out => ?_) l .new) (Nat.zero_le _) fun root v hv g => ?_
  · rw [ArrayString.tryFromCharsLoop]; rfl
  · rw [ArrayString.tryFromCharsLoop]; rfl
  · rw [ArrayString.tryFromCharsLoop, bind_run]
    simp only [scriptIter]
    generalize ArrayString.tryPush a out = p
    obtain ⟨r, o⟩ := p
    cases r <;> rfl
  · refine sim_feed g (by rw [hv]; exact shape_new) fun a ha w1 T1 g1 hs1 k1 => ?_
    refine sim_bind (Q := fun a b _ => a = b) (sim_callMut (c := []) g1 rfl rfl fun t u w2 s2 g2 => ?_)
      (fun _ _ _ h => h) fun _ _ _ _ _ g _ hs _ => sim_pure g hs rfl
    exact sim_tryPush g2 rfl (by rw [s2]; exact hs1)

/-- The plain version of `pushOrBreak`. -/
def orBreak (c : Char) : M (ArrayString N) ε Bool := do
  let r ← M.attempt (ArrayString.tryPush c)
  match r with
  | .ok () => pure true
  | .error _ => pure false

theorem sim_pushOrBreak [ValidCapacity N] {ch : Char} (h : State L (Home L root fun _ => []) A T P w) (hs : Shape w.str) :
    Same L (Home L root fun _ => []) A P T (pushOrBreak root ch : M _ ε _) (orBreak ch) w := by
  refine sim_bind (Q := fun a b _ => a = b)
    (sim_attempt (sim_callMut (c := []) h rfl rfl fun t u w2 s2 g2 => ?_)) (fun _ _ _ h => h) ?_
  · exact sim_tryPush g2 rfl (by rw [s2]; exact hs)
  · rintro r _ w2 T2 _ g2 _ hs2 rfl
    cases r <;> exact sim_pure g2 hs2 rfl

theorem orBreak_run {c : Char} {out : ArrayString N} :
    (orBreak c : M (ArrayString N) ε Bool) out =
      match ArrayString.tryPush c out with
      | (.ok (), x) => (.ok true, x)
      | (.err _, x) => (.ok false, x)
      | (.panic, x) => (.panic, x)
      | (.ub, x) => (.ub, x)
      | (.diverge, x) => (.diverge, x) := by
  unfold orBreak
  rw [attempt_run]
  generalize ArrayString.tryPush c out = p
  obtain ⟨r, o⟩ := p
  cases r <;> rfl

theorem runsR_fromCharsTruncate [ValidCapacity N] {l : Script Char} :
    RunsR L b B total s (fromCharsTruncate l : M _ ε _) T P (ArrayString.fromCharsTruncate scriptIter l)
      (fun x y _ => x = y.1 ∧ Shape x) := by
  refine runsR_make (m₀ := feed orBreak l)
    (feed_eq (fun out => ?_) (fun l out => ?_) (fun a l out => ?_) l .new) (Nat.zero_le _) fun root v hv g =>
      sim_feed g (by rw [hv]; exact shape_new) fun a ha w1 T1 g1 hs1 k1 => sim_pushOrBreak g1 hs1
  · rw [ArrayString.fromCharsTruncateLoop]; rfl
  · rw [ArrayString.fromCharsTruncateLoop]; rfl
  · rw [ArrayString.fromCharsTruncateLoop, orBreak_run]
    simp only [scriptIter]
    generalize ArrayString.tryPush a out = p
    obtain ⟨r, o⟩ := p
    cases r <;> rfl

theorem runsR_tryFromUtf16 [ValidCapacity N] {l : List UInt16} :
    RunsR L b B total s (tryFromUtf16 l) T P (ArrayString.tryFromUtf16 l) (fun x y _ => x = y ∧ Shape x) := by
  refine runsR_make (g := id) (m₀ := feed (fun c =>
      match c with
      | none => M.lift (.err (ErrFrom.from_ DecodeUtf16Error.mk))
      | some c => do
        M.tryM (ArrayString.tryPush c)
        pure true) (decoded (none, l)))
    (feed_decoded (fun k out => ?_) _ _) (Nat.zero_le _) fun root v hv g => ?_
  · rw [ArrayString.tryFromUtf16Loop]
    cases Str.decodeUtf16Next k with
    | done _ => rfl
    | panic => rfl
    | item c k =>
      cases c with
      | none => rfl
      | some c =>
        simp only [bind_run, M.tryM]
        generalize ArrayString.tryPush c out = p
        obtain ⟨r, o⟩ := p
        cases r <;> rfl
  · refine sim_feed g (by rw [hv]; exact shape_new) fun a ha w1 T1 g1 hs1 k1 => ?_
    cases a with
    | none => exact sim_lift g1 hs1
    | some a =>
      refine sim_bind (Q := fun a b _ => a = b)
        (sim_tryM (sim_callMut (c := []) g1 rfl rfl fun t u w2 s2 g2 => ?_))
        (fun _ _ _ h => h) fun _ _ _ _ _ g _ hs _ => sim_pure g hs rfl
      exact sim_tryPush g2 rfl (by rw [s2]; exact hs1)

theorem runsR_fromUtf16Truncate [ValidCapacity N] {l : List UInt16} :
    RunsR L b B total s (fromUtf16Truncate l) T P (ArrayString.fromUtf16Truncate l)
      (fun x y _ => x = y ∧ Shape x) := by
  refine runsR_make (g := id) (m₀ := feed (fun c =>
      match c with
      | none => M.lift (.err (ErrFrom.from_ DecodeUtf16Error.mk))
      | some c => orBreak c) (decoded (none, l)))
    (feed_decoded (fun k out => ?_) _ _) (Nat.zero_le _) fun root v hv g => ?_
  · rw [ArrayString.fromUtf16TruncateLoop]
    cases Str.decodeUtf16Next k with
    | done _ => rfl
    | panic => rfl
    | item c k =>
      cases c with
      | none => rfl
      | some c =>
        simp only [orBreak_run]
        generalize ArrayString.tryPush c out = p
        obtain ⟨r, o⟩ := p
        cases r <;> rfl
  · refine sim_feed g (by rw [hv]; exact shape_new) fun a ha w1 T1 g1 hs1 k1 => ?_
    cases a with
    | none => exact sim_lift g1 hs1
    | some a => exact sim_pushOrBreak g1 hs1

theorem runsR_fromUtf16LossyTruncate [ValidCapacity N] {l : List UInt16} :
    RunsR L b B total s (fromUtf16LossyTruncate l : M _ ε _) T P (ArrayString.fromUtf16LossyTruncate l)
      (fun x y _ => x = y ∧ Shape x) := by
  refine runsR_make (g := id) (m₀ := feed (fun c => orBreak (c.getD Str.replacementCharacter)) (decoded (none, l)))
    (feed_decoded (fun k out => ?_) _ _) (Nat.zero_le _) fun root v hv g => ?_
  · rw [ArrayString.fromUtf16LossyTruncateLoop]
    cases Str.decodeUtf16Next k with
    | done _ => rfl
    | panic => rfl
    | item c k =>
      simp only [orBreak_run]
      generalize ArrayString.tryPush (c.getD Str.replacementCharacter) out = p
      obtain ⟨r, o⟩ := p
      cases r <;> rfl
  · refine sim_feed g (by rw [hv]; exact shape_new) fun a ha w1 T1 g1 hs1 k1 => ?_
    generalize a.getD Str.replacementCharacter = c
    exact sim_pushOrBreak g1 hs1

theorem runsR_addTo [ValidCapacity N] {other : Bytes}
    (ht : Usable b T arg (N + 1) (N + 1 + other.length)) (hh : N + 1 + other.length ≤ total) (hs : Shape s) :
    RunsR L b B total s (addTo s arg other : M _ ε _) T P (s.add other) (fun x y _ => x = y ∧ Shape x) := by
  refine runsR_pass ht hh fun u T3 P3 k3 c3 => ?_
  refine runsR_make (g := id) (m₀ := ArrayString.pushStrTruncate other) ?_ hh fun root v hv g => ?_
  · unfold ArrayString.add
    generalize M.onLocal (ArrayString.pushStrTruncate other) s = p
    cases p <;> rfl
  · refine sim_callMut (c := []) g rfl rfl fun t self w1 s1 g1 => ?_
    refine sim_pushStrTruncate g1 rfl (show _ ≤ N + 1 + (N + 1 + other.length - (N + 1)) by omega) ?_
      (by rw [s1, hv]; exact hs)
    exact fun l h1 h2 => Or.inr (c3 _ (by omega) (by omega))

theorem runsR_add [ValidCapacity N] {other : Bytes} (hself : Usable b T caller 0 (N + 1))
    (ht : Usable b T arg (N + 1) (N + 1 + other.length)) (hh : N + 1 + other.length ≤ total) (hs : Shape s) :
    RunsR L b B total s (add caller arg other : M _ ε _) T P (s.add other) (fun x y _ => x = y ∧ Shape x) := by
  refine runsR_left (runs_read hself (by omega)) fun _ T1 k1 _ => runsR_left runs_get fun s' T2 k2 e => ?_
  subst s'
  exact runsR_addTo ((ht.grow k1).grow k2) hh hs

theorem runsR_call {body : Tag → M (World R N) ε α} {r : Res ε β} {Z : α → β → (Nat → List Tag) → Prop}
    (hself : Usable b T self 0 (N + 1)) (hh : N + 1 ≤ total)
    (hb : ∀ u T' P', Grows T T' → Covers T' u 0 (N + 1) → RunsR L b B total s (body u) T' P' r Z) :
    RunsR L b B total s (callShared self body) T P r Z :=
  runsR_left (runs_shared hself hh) fun _ _ hg hc =>
    runsR_pass hc.usable hh fun u T' P' hg' hc' => hb u T' P' (hg.trans hg') hc'

theorem index_ok {t bytes : Bytes} {x y : Nat} (h : (Str.index bytes x y : Res ε Bytes) = .ok t) :
    x ≤ y ∧ y ≤ bytes.length := by
  unfold Str.index at h
  split at h
  next hc =>
    unfold Str.get? at hc
    split at hc
    next hr =>
      refine ⟨hr.1, ?_⟩
      have h2 := hr.2.2
      by_cases h0 : y = 0
      · omega
      unfold Str.isCharBoundary at h2
      rw [if_neg (by omega)] at h2
      split at h2
      · have := eq_of_beq h2; omega
      · omega
    next => cases hc
  next => cases h

/-- What comes back from a call is retagged. -/
theorem runsR_again {m : M (World R N) ε (Tag × Nat × Nat × Bytes)} {r : Res ε Bytes} (hN : N ≤ total)
    {K : Nat → Nat → Bytes → Prop} (h : RunsR L b B total s m T P r
      (fun x y T' => x.2.2.2 = y ∧ x.2.2.1 ≤ N ∧ Covers T' x.1 x.2.1 x.2.2.1 ∧ K x.2.1 x.2.2.1 y)) :
    RunsR L b B total s (do
      let (a, x, y, t) ← m
      let a ← retagShared a x y false
      pure (a, x, y, t)) T P r
      (fun x y T' => x.2.2.2 = y ∧ x.2.2.1 ≤ N ∧ Covers T' x.1 x.2.1 x.2.2.1 ∧ K x.2.1 x.2.2.1 y) := by
  have e : (r >>= Res.ok : Res ε Bytes) = r := by cases r <;> rfl
  rw [← e]
  refine runsR_bind h ?_
  rintro ⟨a, x, y, t⟩ _ T1 k1 ⟨rfl, hy, c1, hk⟩
  simp only at hy c1 hk ⊢
  refine runsR_left (runs_shared c1.usable (by omega)) fun u T2 k2 c2 => ?_
  exact runsR_of_runs (runs_pure (Q := fun a T => a = (u, x, y, t) ∧ Covers T u x y) ⟨rfl, c2⟩) (by
    rintro _ T3 ⟨rfl, c3⟩
    exact ⟨rfl, hy, c3, hk⟩)

theorem runsR_indexRef {i : IdxU8} (hself : Usable b T caller 0 (N + 1)) (hh : N + 1 ≤ total) (hs : Shape s) :
    RunsR L b B total s (indexRef caller i : M _ ε _) T P (s.index i)
      (fun x y T' => x.2.2.2 = y ∧ x.2.2.1 ≤ N ∧ Covers T' x.1 x.2.1 x.2.2.1 ∧
        i.toUsize.resolve s.len = some (x.2.1, x.2.2.1) ∧
        (Str.index (s.array.take s.len) x.2.1 x.2.2.1 : Res ε Bytes) = .ok y) := by
  have h1 : RunsR L b B total s (callShared caller fun self => do
      let (a, n) ← asStr self
      let s ← get
      let b ← M.lift s.asStr
      let (a, x, y, t) ← passShared a 0 n fun a =>
        match i.toUsize.resolve b.length with
        | none => M.lift .panic
        | some (x, y) => do
          readBoundary a 0 n x
          readBoundary a 0 n y
          let t ← M.lift (Str.index b x y)
          let a ← retagShared a x y false
          pure (a, x, y, t)
      let a ← retagShared a x y false
      pure (a, x, y, t) : M _ ε (Tag × Nat × Nat × Bytes)) T P (s.index i)
      (fun x y T' => x.2.2.2 = y ∧ x.2.2.1 ≤ N ∧ Covers T' x.1 x.2.1 x.2.2.1 ∧
        i.toUsize.resolve s.len = some (x.2.1, x.2.2.1) ∧
        (Str.index (s.array.take s.len) x.2.1 x.2.2.1 : Res ε Bytes) = .ok y) := by
    refine runsR_call hself hh fun u T1 P1 k1 c1 => runsR_left (runs_asStr c1.usable hh hs.2) ?_
    rintro ⟨a, n⟩ T2 k2 ⟨rfl, c2⟩
    refine runsR_left runs_get fun s' T3 k3 e => ?_
    subst s'
    have := hs.2
    have key : (s.index i : Res ε Bytes) = s.asStr >>= fun bytes =>
        match i.toUsize.resolve bytes.length with
        | none => .panic
        | some (x, y) => Str.index bytes x y := rfl
    rw [key]
    cases hb : (s.asStr : Res ε Bytes) with
    | err e => exact fun w hw hi => ⟨_, w, T3, rfl, hw, .err, fun _ => ⟨hi, .refl⟩⟩
    | panic => exact fun w hw hi => ⟨_, w, T3, rfl, hw, .panic, fun _ => ⟨hi, .refl⟩⟩
    | ub => exact fun w hw hi => ⟨_, w, T3, rfl, hw, .ub, fun h => absurd rfl h.1⟩
    | diverge => exact fun w hw hi => ⟨_, w, T3, rfl, hw, .diverge, fun h => absurd rfl h.2⟩
    | ok bytes => ?_
    have hl := (asStr_ok hb).1
    rw [← asStr_take hb]
    show RunsR L b B total s _ T3 P1 (match i.toUsize.resolve bytes.length with
      | none => .panic
      | some (x, y) => Str.index bytes x y) _
    refine runsR_left (runs_pure (a := bytes) (Q := fun x _ => x = bytes) rfl) fun b' T4 k4 e => ?_
    subst b'
    refine runsR_again (K := fun x y t => i.toUsize.resolve s.len = some (x, y) ∧
      (Str.index bytes x y : Res ε Bytes) = .ok t) (by omega) (runsR_pass ((c2.grow k3).grow k4).usable (by omega) fun u T5 P5 k5 c5 => ?_)
    cases hr : i.toUsize.resolve bytes.length with
    | none => exact fun w hw hi => ⟨_, w, T5, rfl, hw, .panic, fun _ => ⟨hi, .refl⟩⟩
    | some p =>
      obtain ⟨x, y⟩ := p
      refine runsR_left (runs_readBoundary (by rw [Nat.zero_add]; exact c5.usable) (by omega)) fun _ T6 k6 _ => ?_
      refine runsR_left (runs_readBoundary (by rw [Nat.zero_add]; exact (c5.grow k6).usable) (by omega))
        fun _ T7 k7 _ => ?_
      show RunsR L b B total s _ T7 P5 (Str.index bytes x y) _
      cases ht : (Str.index bytes x y : Res ε Bytes) with
      | err e => exact fun w hw hi => ⟨_, w, T7, rfl, hw, .err, fun _ => ⟨hi, .refl⟩⟩
      | panic => exact fun w hw hi => ⟨_, w, T7, rfl, hw, .panic, fun _ => ⟨hi, .refl⟩⟩
      | ub => exact fun w hw hi => ⟨_, w, T7, rfl, hw, .ub, fun h => absurd rfl h.1⟩
      | diverge => exact fun w hw hi => ⟨_, w, T7, rfl, hw, .diverge, fun h => absurd rfl h.2⟩
      | ok t =>
        have hy := (index_ok ht).2
        refine runsR_left (runs_pure (a := t) (Q := fun x _ => x = t) rfl) fun t' T8 k8 e => ?_
        subst t'
        refine runsR_left (runs_shared ((((c5.grow k6).grow k7).grow k8).sub (Nat.zero_le _) (by omega)).usable
          (by omega)) fun u T9 k9 c9 => ?_
        exact runsR_of_runs (runs_pure (Q := fun a T => a = (u, x, y, t) ∧ Covers T u x y) ⟨rfl, c9⟩) (by
          rintro _ T10 ⟨rfl, c10⟩
          exact ⟨rfl, by simp only; omega, c10, by rw [← hl, hr], ht⟩)
  have e : (s.index i >>= Res.ok : Res ε Bytes) = s.index i := by cases (s.index i : Res ε Bytes) <;> rfl
  rw [← e]
  refine runsR_bind h1 ?_
  rintro ⟨a, x, y, t⟩ _ T1 k1 ⟨rfl, hy, c1, hk⟩
  simp only at hy c1 hk ⊢
  exact runsR_left (runs_shared c1.usable (by omega)) fun u T2 k2 c2 =>
    runsR_of_runs (runs_pure (Q := fun a T => a = (u, x, y, t) ∧ Covers T u x y) ⟨rfl, c2⟩) (by
      rintro _ T3 ⟨rfl, c3⟩
      exact ⟨rfl, hy, c3, hk⟩)

theorem runsR_index {i : IdxU8} (hself : Usable b T caller 0 (N + 1)) (hh : N + 1 ≤ total) (hs : Shape s) :
    RunsR L b B total s (index caller i : M _ ε _) T P (s.index i) (fun x y _ => x = y) := by
  have e : (s.index i >>= Res.ok : Res ε Bytes) = s.index i := by cases (s.index i : Res ε Bytes) <;> rfl
  rw [← e]
  refine runsR_bind (runsR_indexRef hself hh hs) ?_
  rintro ⟨a, x, y, t⟩ _ T1 k1 ⟨rfl, hy, c1, _⟩
  simp only at hy c1 ⊢
  exact runsR_left (runs_read c1.usable (by omega)) fun _ T3 k3 _ =>
    runsR_of_runs (runs_pure (Q := fun x _ => x = t) rfl) (by rintro _ _ rfl; rfl)

end

/-! ## Methods -/

theorem sim_method' [Verif.Kind ε] {m : Tag → M (World R N) ε α} {m₀ : M (ArrayString N) ε β}
    {out : α → Out} {out₀ : β → Out} {Q : α → β → (Nat → List Tag) → Prop}
    (h : State L (Home L root fun _ => q) A T P w) (ho : ∀ a b T, Q a b T → out a = out₀ b)
    (hb : ∀ d u w', useAll d = d → w'.str = w.str → State L (Home L root (own u d)) A T P w' →
      Sim L (Home L root (own u d)) A P T (m u) m₀ w' Q)
    (hc : tagOf root q = caller := by rfl) (hq : useAll q = q := by rfl) :
    Same L (Home L root fun _ => q) A P T (method caller m out) (Verif.call m₀ out₀) w :=
  sim_bind (sim_mapErr (sim_callMut h hc hq fun t u w' s g => hb (⟨t, .used, false⟩ :: q) u w'
    (by rw [useAll_cons, hq]; rfl) s g))
    (fun _ _ _ h => h) fun _ _ _ _ _ g _ hs hz => sim_pure g hs (ho _ _ _ hz)

theorem sim_extend [ValidCapacity N] {κ : Type} {make : M (World R N) ε (ArrayString N)} {r : Res ε (ArrayString N × κ)}
    (h : State L (Home L root (own self d)) A T P w) (hd : useAll d = d) (hs : Shape w.str)
    (hm : ∀ t, RunsR L (bases (fun _ => self) A) (props (Home L root (waiting t self d)) A) A.total w.str make
      (above N T) (above N P) r (fun x y _ => x = y.1 ∧ Shape x)) :
    Sim L (Home L root (own self d)) A P T (extend self make) (do
      let (t, k) ← M.lift r
      let b ← M.lift t.asRefStr
      ArrayString.pushStrTruncate b
      pure k) w (fun _ _ _ => True) := by
  obtain ⟨u, w1, e1, s1, g1⟩ := h.twoOwn (ε := ε)
  have hm := hm u
  rw [← s1] at hm
  have hp : ∀ l st, l ≤ N → Home L root (waiting u self d) l st → Home L root (own self d) l st :=
    fun _ _ _ hm => Top.pop (r := ⟨u, .raw, false⟩) (c := ⟨self, .used, true⟩ :: d) hm rfl
  refine sim_left e1 s1 .refl (sim_bind (g1.runR stable_waiting (by rw [s1]; exact hs) hm) hp ?_)
  rintro x ⟨y, k⟩ w2 T2 _ g2 _ hs2 ⟨rfl, hx⟩
  refine sim_bind (sim_lift g2 hs2) hp ?_
  rintro bytes _ w3 T3 _ g3 _ hs3 rfl
  have key : Same L (Home L root (own self d)) A P T3
      (withBuf bytes.length fun a => passUnique u 0 (N + 1) fun self => pushStrTruncate self a bytes : M _ ε _)
      (ArrayString.pushStrTruncate bytes) w3 :=
    sim_withBuf g3 fun buf w4 s4 g4 => sim_passWaiting g4 hd fun d' u w5 hd' s5 g5 =>
      sim_pushStrTruncate g5 hd' (Nat.le_refl _) (fun _ _ _ => Or.inl rfl) (by rw [s5, s4]; exact hs3)
  have e : ∀ {m : M (World R N) ε Unit}, (m >>= fun _ => pure ()) = m := by
    intro m
    funext v
    rw [bind_run]
    generalize m v = p
    obtain ⟨r, o⟩ := p
    cases r <;> rfl
  rw [← e (m := withBuf _ _)]
  exact sim_bind key (fun _ _ _ h => h) fun _ _ _ _ _ g _ hs _ => sim_pure g hs trivial

theorem sim_writeAll [ValidCapacity N] {l : List Bytes} (h : State L (Home L root (own self d)) A T P w)
    (hd : useAll d = d) (hN : ∀ b ∈ l, N + 1 + b.length ≤ A.total)
    (ht : Usable A.b T arg (N + 1) A.total) (hs : Shape w.str) :
    Same L (Home L root (own self d)) A P T (writeAll self arg l)
      (Fmt.write ArrayString.sink (l.map .lit)) w := by
  induction l generalizing w T with
  | nil => exact sim_pure h hs rfl
  | cons b l ih =>
    have hb := hN b List.mem_cons_self
    have hr : ∀ {m : M (World R N) FmtError Unit} {m₀ : M (ArrayString N) FmtError Unit},
        Same L (Home L root (own self d)) A P T m m₀ w →
        Same L (Home L root (own self d)) A P T (m >>= fun _ => writeAll self arg l)
          (m₀ >>= fun _ => Fmt.write ArrayString.sink (l.map .lit)) w := fun h =>
      sim_bind h (fun _ _ _ h => h) fun _ _ w1 T1 _ g1 k1 hs1 _ =>
        ih g1 (fun b h => hN b (List.mem_cons_of_mem _ h)) (k1.usable ht (by omega)) hs1
    unfold writeAll
    rw [List.map_cons, Fmt.write]
    split
    · exact hr (m := pure ()) (m₀ := pure ()) (sim_pure h hs rfl)
    · refine hr (sim_callOwn h hd fun d' u w1 hd' s1 g1 => ?_)
      exact sim_writeStr g1 hd' hb (fun l h1 h2 => ht l h1 (by omega)) (by rw [s1]; exact hs)

/-- The plain version of `drainEnds`, on the string inside. -/
def ends : List End → M (ArrayString N) ε (List (Option Char))
  | [] => pure []
  | .front :: es => do
    let r ← M.attempt (ArrayString.remove 0)
    let os ← ends es
    match r with
    | .ok c => pure (some c :: os)
    | .error _ => pure (none :: os)
  | .back :: es => do
    let o ← ArrayString.pop
    let os ← ends es
    pure (o :: os)

theorem sim_drainEnds [ValidCapacity N] {es : List End} (h : State L (Home L root fun _ => []) A T P w) (hs : Shape w.str) :
    Same L (Home L root fun _ => []) A P T (drainEnds root es : M _ ε _) (ends es) w := by
  induction es generalizing w T with
  | nil => exact sim_pure h hs rfl
  | cons e es ih =>
    cases e with
    | front =>
      refine sim_bind (Q := fun a b _ => a = b)
        (sim_attempt (sim_callMut (c := []) h rfl rfl fun t u w1 s1 g1 =>
          sim_callOwn g1 rfl fun d' u w2 hd' s2 g2 => sim_remove g2 hd' (by rw [s2, s1]; exact hs)))
        (fun _ _ _ h => h) ?_
      rintro r _ w1 T1 _ g1 _ hs1 rfl
      refine sim_bind (ih g1 hs1) (fun _ _ _ h => h) ?_
      rintro os _ w2 T2 _ g2 _ hs2 rfl
      cases r <;> exact sim_pure g2 hs2 rfl
    | back =>
      refine sim_bind (Q := fun a b _ => a = b)
        (sim_callMut (c := []) h rfl rfl fun t u w1 s1 g1 =>
          sim_callOwn g1 rfl fun d' u w2 hd' s2 g2 => sim_pop g2 hd' (by rw [s2, s1]; exact hs))
        (fun _ _ _ h => h) ?_
      rintro r _ w1 T1 _ g1 _ hs1 rfl
      refine sim_bind (ih g1 hs1) (fun _ _ _ h => h) ?_
      rintro os _ w2 T2 _ g2 _ hs2 rfl
      exact sim_pure g2 hs2 rfl

theorem ends_eq {es : List End} {d : ArrayString.Drain N} :
    (Verif.drainEnds es : M _ ε _) d = (((ends es : M _ ε _) d.inner).1, ⟨((ends es : M _ ε _) d.inner).2⟩) := by
  induction es generalizing d with
  | nil => rfl
  | cons e es ih =>
    cases e with
    | front =>
      unfold Verif.drainEnds ends ArrayString.Drain.next
      rw [bind_run, attempt_run, attempt_run]
      simp only [ArrayString.Drain.onInner]
      generalize ArrayString.remove 0 d.inner = p
      obtain ⟨r, o⟩ := p
      cases r with
      | ok c =>
        show (Verif.drainEnds es >>= fun os => pure (some c :: os)) ⟨o⟩ = _
        simp only [bind_run, ih]
        generalize ends es o = q
        obtain ⟨r, o'⟩ := q
        cases r <;> rfl
      | err e =>
        show (Verif.drainEnds es >>= fun os => pure (none :: os)) ⟨o⟩ = _
        simp only [bind_run, ih]
        generalize ends es o = q
        obtain ⟨r, o'⟩ := q
        cases r <;> rfl
      | panic => rfl
      | ub => rfl
      | diverge => rfl
    | back =>
      unfold Verif.drainEnds ends ArrayString.Drain.nextBack
      rw [bind_run, bind_run]
      simp only [ArrayString.Drain.onInner]
      generalize ArrayString.pop d.inner = p
      obtain ⟨r, o⟩ := p
      cases r with
      | ok c =>
        show (Verif.drainEnds es >>= fun os => pure (c :: os)) ⟨o⟩ = _
        simp only [bind_run, ih]
        generalize ends es o = q
        obtain ⟨r, o'⟩ := q
        cases r <;> rfl
      | err e => rfl
      | panic => rfl
      | ub => rfl
      | diverge => rfl

theorem runsR_map {b : Nat → Tag} {B : Nat → R.St → Prop} {total : Nat} {s : ArrayString N}
    {m : M (World R N) ε α} {r : Res ε γ} {g : γ → β} {Z : α → γ → (Nat → List Tag) → Prop}
    {Z' : α → β → (Nat → List Tag) → Prop} (h : RunsR L b B total s m T P r Z)
    (hz : ∀ a y T', Z a y T' → Z' a (g y) T') :
    RunsR L b B total s m T P (r >>= fun y => .ok (g y)) Z' := by
  intro w hs hi
  obtain ⟨r', w', T', h1, h2, h3, h4⟩ := h w hs hi
  refine ⟨r', w', T', h1, h2, ?_, fun hr => h4 ?_⟩
  · cases h3 with
    | ok hq => exact .ok (hz _ _ _ hq)
    | err => exact .err
    | panic => exact .panic
    | ub => exact .ub
    | diverge => exact .diverge
  · cases r <;> simp_all [Settled, bind, Res.bind]

theorem bind_pure_ {σ : Type} {m : M σ ε α} : (m >>= pure) = m := by
  funext s
  rw [bind_run]
  generalize m s = p
  obtain ⟨r, s'⟩ := p
  cases r <;> rfl

theorem ends_local {es : List End} {d : ArrayString.Drain N} :
    (Verif.drainEnds es : M _ ε _).onLocal d = (ends es).onLocal d.inner >>= fun x => .ok (x.1, ⟨x.2⟩) := by
  unfold M.onLocal
  rw [ends_eq]
  generalize ends es d.inner = q
  obtain ⟨r, o⟩ := q
  cases r <;> rfl

/-- The text of a string that was given away is looked at. -/
theorem sim_looked {root : Tag} (h : State L (Home L root fun _ => []) A T P w) (hs : Shape w.str) {a : α} :
    Same L (Home L root fun _ => []) A P T (do
      let _ ← look root
      pure a : M _ ε _) (pure a) w := by
  obtain ⟨w1, T1, e1, s1, g1, k1⟩ := h.look (ε := ε) (self := root) (fun _ _ => L.stable_root) hs
  exact sim_left e1 s1 k1 (sim_pure g1 (by rw [s1]; exact hs) rfl)

theorem use_q {t : Tag} (hq : useAll q = q) : useAll (⟨t, .used, false⟩ :: q) = ⟨t, .used, false⟩ :: q := by
  rw [useAll_cons, hq]; rfl

theorem stable_top (hc : tagOf root q = caller) : ∀ l, l ≤ N → L.Stable caller (Home L root (fun _ => q) l) :=
  hc ▸ stable_home (N := N)

theorem sim_drainCall [ValidCapacity N] {r : RangeB} {es : List End} (h : State L (Home L root fun _ => q) A T P w)
    (hs : Shape w.str) (hc : tagOf root q = caller := by rfl) (hq : useAll q = q := by rfl) :
    Same L (Home L root fun _ => q) A P T (do
      let d ← callMut caller fun self => drain self r
      let (os, s) ← withLocal d.inner 0 0 fun d => do
        let os ← drainEnds d es
        let _ ← look d
        pure os
      let b ← M.lift s.asStr
      pure (os, b)) (do
      let d ← ArrayString.drain r
      let (os, d) ← M.lift ((Verif.drainEnds es).onLocal d)
      let b ← M.lift d.asStr
      pure (os, b)) w := by
  refine sim_bind (Q := fun x y _ => x = y ∧ Shape x.inner) (sim_callMut h hc hq
    fun t u w1 s1 g1 => sim_drain g1 (use_q hq) (by rw [s1]; exact hs)) (fun _ _ _ h => h) ?_
  rintro x _ w1 T1 _ g1 _ hs1 ⟨rfl, hx⟩
  have hl : RunsR L (bases (fun _ => caller) A) (props (Home L root fun _ => q) A) A.total w1.str
      (withLocal x.inner 0 0 fun d => do
        let os ← drainEnds d es
        let _ ← look d
        pure os) (above N T1) (above N P) ((Verif.drainEnds es : M _ Error _).onLocal x)
      (fun a b _ => a.1 = b.1 ∧ a.2 = b.2.inner) := by
    have := runsR_local (L := L) (b := bases (fun _ => caller) A) (B := props (Home L root fun _ => q) A)
      (total := A.total) (s := w1.str) (T := above N T1) (P := above N P) (init := x.inner) (lo := 0) (hi := 0)
      (body := fun d => (do
        let os ← drainEnds d es
        let _ ← look d
        pure os : M (World R N) Error _)) (m₀ := ends es >>= pure) (Nat.zero_le _) fun root v hv g => ?_
    · rw [bind_pure_] at this
      rw [ends_local]
      refine runsR_map this ?_
      rintro _ y _ ⟨rfl, _⟩
      exact ⟨rfl, rfl⟩
    · refine sim_bind (sim_drainEnds g (by rw [hv]; exact hx)) (fun _ _ _ h => h) ?_
      rintro os _ w2 T2 _ g2 _ hs2 rfl
      exact sim_looked g2 hs2
  refine sim_bind (g1.runR (b := fun _ => caller) (stable_top hc) hs1 hl) (fun _ _ _ h => h) ?_
  rintro ⟨os, s⟩ ⟨_, ⟨s⟩⟩ w2 T2 _ g2 _ hs2 ⟨rfl, rfl⟩
  exact sim_lift_bind g2 hs2 fun b _ => sim_pure g2 hs2 rfl

theorem sim_splitCall [ValidCapacity N] {at_ : Nat} (h : State L (Home L root fun _ => q) A T P w)
    (hs : Shape w.str) (hc : tagOf root q = caller := by rfl) (hq : useAll q = q := by rfl) :
    Same L (Home L root fun _ => q) A P T (do
      let t ← callMut caller fun self => splitOff self at_
      let _ ← withLocal t 0 0 look
      M.lift t.asStr) (do
      let t ← ArrayString.splitOff at_
      M.lift t.asStr) w := by
  refine sim_bind (Q := fun x y _ => x = y ∧ Shape x) (sim_callMut h hc hq
    fun t u w1 s1 g1 => sim_splitOff g1 (use_q hq) (by rw [s1]; exact hs)) (fun _ _ _ h => h) ?_
  rintro x _ w1 T1 _ g1 _ hs1 ⟨rfl, hx⟩
  have := runsR_local (L := L) (b := bases (fun _ => caller) A) (B := props (Home L root fun _ => q) A)
    (total := A.total) (s := w1.str) (T := above N T1) (P := above N P) (init := x) (lo := 0) (hi := 0)
    (body := (look : Tag → M (World R N) Error Nat)) (m₀ := pure x.len) (Nat.zero_le _) fun root v hv g => ?_
  · obtain ⟨r, w2, T2, e2, s2, m2, g2⟩ := g1.runR (b := fun _ => caller) (stable_top hc) hs1 this
    replace m2 : Match _ r (.ok (x.len, x)) := m2
    cases m2 with
    | ok hq =>
      obtain ⟨g2, k2, _⟩ := g2 settled_ok
      exact sim_left e2 s2 k2 (sim_lift g2 (by rw [s2]; exact hs1))
  · obtain ⟨w2, T2, e2, s2, g2, k2⟩ := g.look (ε := Error) (self := root) (fun _ _ => L.stable_root)
      (by rw [hv]; exact hx)
    exact ⟨_, w2, T2, e2, s2, .ok (by rw [hv]), fun _ => ⟨g2, k2, by rw [hv]; exact hx⟩⟩

/-! ## Editing the text -/

theorem sim_plain {m : M (ArrayString N) ε α} (h : State L φ A T P w)
    (hp : Settled (m w.str).1 → Shape (m w.str).2) : Same L φ A P T (plain m) m w :=
  ⟨(m w.str).1, { w with str := (m w.str).2 }, T, rfl, rfl, Match.rfl, fun hr => ⟨h.put _, .refl, hp hr⟩⟩

theorem State.unused {t : Tag} {lo hi : Nat} (h : State L (Using L root self t lo hi q) A T P w) :
    State L (Home L root fun _ => q) A T P w :=
  h.map fun l st _ hm => by
    unfold Using at hm
    by_cases hn : lo ≤ l ∧ l < hi
    · simp only [if_pos hn] at hm; exact Top.pop (L.main_pop hm rfl) rfl
    · simp only [if_neg hn] at hm; exact Top.pop hm rfl

theorem State.asMutStrOn {c : List Ref} (h : State L (fun _ => L.Main root (⟨self, .new, true⟩ :: c)) A T P w)
    (hl : w.str.len ≤ N) :
    ∃ u w' T', (Borrow.asMutStrOn self : M (World R N) ε (Tag × Nat)) w = (.ok (u, w.str.len), w') ∧
      w'.str = w.str ∧ State L (Slice L root (⟨self, .new, true⟩ :: c) u 0 w.str.len) A T' P w' ∧
      Keeps N T T' := by
  obtain ⟨w1, e1, s1, g1⟩ := h.fresh (ε := ε) (lo := 0) (hi := N + 1) (f := R.twoPhase self)
    (φ' := fun _ => L.Main root (⟨w.next, .raw, false⟩ :: ⟨self, .new, true⟩ :: c)) (by omega)
    (fun l st _ _ hm hb => L.main_two hm hb) (fun l st _ _ => by omega)
  obtain ⟨v, u, w2, T2, e2, s2, g2, k2, _⟩ := g1.passRef (root := root) (t := w.next)
    (c := ⟨w.next, .raw, false⟩ :: ⟨self, .new, true⟩ :: c) (body := Borrow.asMutOn) (ε := ε) hl
    (fun l st _ hm hb => L.main_unique true hm hb)
    (fun u w2 s2 g2 => by
      obtain ⟨v, w3, T3, e3, s3, g3, k3⟩ := g2.asMutOn (ε := ε) (by rw [s2, s1]; exact hl)
      rw [s2, s1] at e3 g3
      exact ⟨v, w3, T3, e3, s3, g3, k3⟩)
  refine ⟨v, w2, T2, ?_, s2.trans s1, (g2.hide (by simp)).hide (by simp), k2⟩
  unfold Borrow.asMutStrOn retagTwoPhase
  rw [bind_ok e1, e2]

/-- A call of `as_mut_str`, with what its argument is made from below. -/
theorem State.asMutStr {φ : Nat → R.St → Prop} {caller : Tag} {c : List Ref} (h : State L φ A T P w)
    (hl : w.str.len ≤ N)
    (he : ∀ l st, l ≤ N → φ l st → L.Below w.next st →
      ∃ st', R.twoPhase caller w.next st = some st' ∧ L.Main root (⟨w.next, .raw, false⟩ :: c) st' ∧
        L.Below (w.next + 1) st') :
    ∃ v t w' T', (Borrow.asMutStr caller : M (World R N) ε (Tag × Nat)) w = (.ok (v, w.str.len), w') ∧
      w'.str = w.str ∧ State L (Slice L root (⟨t, .raw, false⟩ :: c) v 0 w.str.len) A T' P w' ∧
      Keeps N T T' := by
  obtain ⟨w1, e1, s1, g1⟩ := h.fresh (ε := ε) (lo := 0) (hi := N + 1) (f := R.twoPhase caller)
    (φ' := fun _ => L.Main root (⟨w.next, .raw, false⟩ :: c)) (by omega)
    (fun l st _ hl hm hb => he l st (by omega) hm hb) (fun l st _ _ => by omega)
  obtain ⟨v, u, w2, T2, e2, s2, g2, k2, _⟩ := g1.passRef (root := root) (t := w.next)
    (c := ⟨w.next, .raw, false⟩ :: c) (body := Borrow.asMutStrOn) (ε := ε) hl
    (fun l st _ hm hb => L.main_unique true hm hb)
    (fun u w2 s2 g2 => by
      obtain ⟨v, w3, T3, e3, s3, g3, k3⟩ := g2.asMutStrOn (ε := ε) (by rw [s2, s1]; exact hl)
      rw [s2, s1] at e3 g3
      exact ⟨v, w3, T3, e3, s3, g3, k3⟩)
  refine ⟨v, w.next, w2, T2, ?_, s2.trans s1, g2.hide (by simp), k2⟩
  unfold Borrow.asMutStr retagTwoPhase
  rw [bind_ok e1, e2]

/-- What happens when bytes that are not text are taken for one. -/
def broken : Res ε α := if profile.debugAssertions then .panic else .ub

theorem broken_bind {σ : Type} {s : σ} {f : Unit → M σ ε α} (h : f () s = (.ub, s)) :
    (M.lift (debugAssert false) >>= f) s = (broken, s) := by
  unfold debugAssert broken
  split
  · contradiction
  · split
    · rfl
    · exact h

/-- What comes out of `as_str`, when the size is in bounds. -/
theorem asStr_cases {s : ArrayString N} (hs : Shape s) :
    ((s.asStr : Res ε Bytes) = .ok (s.array.take s.len) ∧ Str.validUtf8 (s.array.take s.len) = true) ∨
    ((s.asStr : Res ε Bytes) = broken ∧ Str.validUtf8 (s.array.take s.len) = false) := by
  have h1 : s.len ≤ N := hs.2
  have h2 : s.len ≤ s.array.length := by rw [hs.1]; exact h1
  cases h0 : profile.debugAssertions <;> cases h3 : Str.validUtf8 (s.array.take s.len) <;>
    simp [ArrayString.asStr, ArrayString.asRefStr, ArrayString.asRefBytes, debugAssert, getUncheckedTo,
      Str.fromUtf8Unchecked, broken, h0, h1, h2, h3, bind, Res.bind]

theorem asMutStr_run {s : ArrayString N} (hs : Shape s) {edit : Bytes → Bytes} :
    (ArrayString.asMutStr edit : M _ ε _) s =
      if Str.validUtf8 (s.array.take s.len) then
        if (edit (s.array.take s.len)).length = (s.array.take s.len).length ∧
            Str.validUtf8 (edit (s.array.take s.len)) then
          (.ok (), { s with array := edit (s.array.take s.len) ++ s.array.drop s.len })
        else (.ub, s)
      else (broken, s) := by
  have h1 : s.len ≤ N := hs.2
  have h2 : s.len ≤ s.array.length := by rw [hs.1]; exact h1
  unfold ArrayString.asMutStr ArrayString.asMut
  have e1 : (debugAssert (decide (s.len ≤ N)) : Res ε Unit) = .ok () := if_pos (decide_eq_true h1)
  have e2 : (getUncheckedTo s.array s.len : Res ε Bytes) = .ok (s.array.take s.len) := if_pos h2
  rw [bind_ok (m := M.self) (a := s) (w' := s) rfl, bind_lift e1, bind_lift e2]
  cases h3 : Str.validUtf8 (s.array.take s.len)
  · refine broken_bind ?_
    rw [show (Str.fromUtf8Unchecked (s.array.take s.len) : Res ε Bytes) = .ub from if_neg (by rw [h3]; simp)]
    rfl
  · have e3 : (debugAssert true : Res ε Unit) = .ok () := rfl
    have e4 : (Str.fromUtf8Unchecked (s.array.take s.len) : Res ε Bytes) = .ok (s.array.take s.len) := if_pos h3
    rw [bind_lift e3, bind_lift e4]
    simp only [if_true]
    by_cases hc : (edit (s.array.take s.len)).length = (s.array.take s.len).length ∧
        Str.validUtf8 (edit (s.array.take s.len))
    · simp only [if_pos hc]; rfl
    · simp only [if_neg hc]; rfl

theorem shape_asMutStr {s : ArrayString N} (hs : Shape s) {edit : Bytes → Bytes} :
    Shape ((ArrayString.asMutStr edit : M _ ε _) s).2 := by
  rw [asMutStr_run hs]
  split
  · split
    next hc =>
      refine ⟨?_, hs.2⟩
      simp only [List.length_append, List.length_drop, hc.1, List.length_take]
      have := hs.1
      omega
    next => exact hs
  · exact hs

theorem indexMut_run {s : ArrayString N} (hs : Shape s) {i : IdxU8} {edit : Bytes → Bytes} :
    (ArrayString.indexMut i edit : M _ ε _) s =
      if Str.validUtf8 (s.array.take s.len) then
        match i.toUsize.resolve s.len with
        | none => (.panic, s)
        | some (x, y) =>
          (do
            let t ← M.lift (Str.index (s.array.take s.len) x y)
            M.lift (if (edit t).length = t.length ∧ Str.validUtf8 (edit t) then .ok () else .ub)
            M.setSelf { s with array := s.array.take x ++ edit t ++ s.array.drop y } : M _ ε _) s
      else (broken, s) := by
  have h1 : s.len ≤ N := hs.2
  have h2 : s.len ≤ s.array.length := by rw [hs.1]; exact h1
  have h4 : (s.array.take s.len).length = s.len := by simp only [List.length_take]; omega
  unfold ArrayString.indexMut
  have e1 : (debugAssert (decide (s.len ≤ N)) : Res ε Unit) = .ok () := if_pos (decide_eq_true h1)
  have e2 : (getUncheckedTo s.array s.len : Res ε Bytes) = .ok (s.array.take s.len) := if_pos h2
  rw [bind_ok (m := M.self) (a := s) (w' := s) rfl, bind_lift e1, bind_lift e2]
  cases h3 : Str.validUtf8 (s.array.take s.len)
  · refine broken_bind ?_
    rw [show (Str.fromUtf8Unchecked (s.array.take s.len) : Res ε Bytes) = .ub from if_neg (by rw [h3]; simp)]
    rfl
  · have e3 : (debugAssert true : Res ε Unit) = .ok () := rfl
    have e4 : (Str.fromUtf8Unchecked (s.array.take s.len) : Res ε Bytes) = .ok (s.array.take s.len) := if_pos h3
    rw [bind_lift e3, bind_lift e4]
    simp only [if_true]
    rw [h4]
    cases i.toUsize.resolve s.len <;> rfl

theorem index_length {t bytes : Bytes} {x y : Nat} (h : (Str.index bytes x y : Res ε Bytes) = .ok t) :
    t.length = y - x := by
  have hk := index_ok h
  unfold Str.index Str.get? at h
  split at h
  next hc =>
    split at hc
    · cases hc; cases h
      simp only [List.length_take, List.length_drop]
      omega
    · cases hc
  next => cases h

theorem shape_indexMut {s : ArrayString N} (hs : Shape s) {i : IdxU8} {edit : Bytes → Bytes} :
    Shape ((ArrayString.indexMut i edit : M _ ε _) s).2 := by
  rw [indexMut_run hs]
  split
  · split
    · exact hs
    · rename_i x y _
      rw [bind_run]
      simp only [M.lift]
      cases ht : (Str.index (s.array.take s.len) x y : Res ε Bytes) with
      | ok t =>
        simp only
        rw [bind_run]
        by_cases hc : (edit t).length = t.length ∧ Str.validUtf8 (edit t)
        · simp only [if_pos hc]
          refine ⟨?_, hs.2⟩
          show (_ ++ _ ++ _ : List UInt8).length = _
          have h1 := index_length ht
          have h2 := index_ok ht
          have h3 := hs.1
          have h4 := hs.2
          simp only [List.length_append, List.length_drop, hc.1, List.length_take] at h2 ⊢
          omega
        · simp only [if_neg hc]; exact hs
      | err e => exact hs
      | panic => exact hs
      | ub => exact hs
      | diverge => exact hs
  · exact hs

section
variable {total : Nat} {hN : N < total}

theorem sim_editText {edit : Bytes → Bytes} (h : State L (Home L root fun _ => q) A T P w) (hs : Shape w.str)
    (hc : tagOf root q = caller := by rfl) (hq : useAll q = q := by rfl) :
    Same L (Home L root fun _ => q) A P T (editText caller edit : M _ ε _) (ArrayString.asMutStr edit) w := by
  obtain ⟨u, t, w1, T1, e1, s1, g1, k1⟩ := h.asMutStr (ε := ε) (root := root) (caller := caller)
    (c := q) hs.2 (fun l st _ hm hb => hc ▸ Top.two hm hb)
  obtain ⟨w2, e2, s2, g2⟩ := Using.read (ε := ε) (lo := 0) (hi := w.str.len) (g1.using hq)
    (Nat.le_refl _) (Nat.le_refl _) hs.2
  obtain ⟨w3, e3, s3, g3⟩ := Using.write (ε := ε) (lo := 0) (hi := w.str.len) g2
    (Nat.le_refl _) (Nat.le_refl _) hs.2 hq
  refine sim_left e1 s1 k1 (sim_left e2 s2 .refl (sim_left e3 s3 .refl ?_))
  exact sim_plain g3.unused fun _ => shape_asMutStr (by rw [s3, s2, s1]; exact hs)

/-- `index_mut` gives back a slice, or panics; or what there is is not text. -/
def Indexes (L : Laws R) (root : Tag) (A : Text R N) (P : Nat → List Tag) (i : IdxU8)
    (f : Tag → M (World R N) ε (Tag × Nat × Nat)) : Prop :=
  ∀ (self : Tag) (c : List Ref) (T : Nat → List Tag) (w : World R N),
    State L (fun _ => L.Main root (⟨self, .new, true⟩ :: c)) A T P w → Shape w.str →
    ∃ w' T', w'.str = w.str ∧ Keeps N T T' ∧
      ((f self w = (.panic, w') ∧
        (∀ edit, (ArrayString.indexMut i edit : M _ ε _) w.str = (.panic, w.str)) ∧
        ∃ u, State L (Slice L root (⟨self, .new, true⟩ :: c) u 0 w.str.len) A T' P w') ∨
      (∃ v x y, f self w = (.ok (v, x, y), w') ∧ y ≤ N ∧
        State L (Slice L root (⟨self, .new, true⟩ :: c) v x y) A T' P w' ∧
        i.toUsize.resolve w.str.len = some (x, y) ∧
        ∃ t, (Str.index (w.str.array.take w.str.len) x y : Res ε Bytes) = .ok t) ∨
      (f self w = (.ub, w') ∧
        (∀ edit, (ArrayString.indexMut i edit : M _ ε _) w.str = (.ub, w.str)) ∧
        Str.validUtf8 (w.str.array.take w.str.len) = false))

theorem State.indexMutOn {c : List Ref} {i : IdxU8}
    (h : State L (fun _ => L.Main root (⟨self, .new, true⟩ :: c)) A T P w) (hs : Shape w.str) :
    ∃ w' T', w'.str = w.str ∧ Keeps N T T' ∧
      (((Borrow.indexMutOn self i : M (World R N) ε _) w = (.panic, w') ∧
        (∀ edit, (ArrayString.indexMut i edit : M _ ε _) w.str = (.panic, w.str)) ∧
        ∃ u, State L (Slice L root (⟨self, .new, true⟩ :: c) u 0 w.str.len) A T' P w') ∨
      (∃ v x y, (Borrow.indexMutOn self i : M (World R N) ε _) w = (.ok (v, x, y), w') ∧ y ≤ N ∧
        State L (Slice L root (⟨self, .new, true⟩ :: c) v x y) A T' P w' ∧
        i.toUsize.resolve w.str.len = some (x, y) ∧
        ∃ t, (Str.index (w.str.array.take w.str.len) x y : Res ε Bytes) = .ok t) ∨
      ((Borrow.indexMutOn self i : M (World R N) ε _) w = (.ub, w') ∧
        (∀ edit, (ArrayString.indexMut i edit : M _ ε _) w.str = (.ub, w.str)) ∧
        Str.validUtf8 (w.str.array.take w.str.len) = false)) := by
  have hA := A.lt
  obtain ⟨u, t, w1, T1, e1, s1, g1, k1⟩ := h.asMutStr (ε := ε) (root := root) (caller := self)
    (c := ⟨self, .new, true⟩ :: c) hs.2 (fun l st _ hm hb => L.main_two hm hb)
  have g1 := g1.hide (by simp)
  unfold Borrow.indexMutOn
  rw [bind_ok e1]
  obtain ⟨s, hw⟩ : ∃ s, w.str = s := ⟨_, rfl⟩
  rw [hw] at s1 g1 hs ⊢
  have hl := hs.2
  have run := fun edit => indexMut_run (ε := ε) hs (i := i) (edit := edit)
  dsimp only
  rw [bind_ok (m := get) (a := s) (w' := w1) (by rw [← s1]; rfl)]
  rcases asStr_cases (ε := ε) hs with ⟨hb, hv⟩ | ⟨hb, hv⟩
  case inr =>
    rw [hb]
    simp only [hv, Bool.false_eq_true, if_false] at run
    unfold broken at run ⊢
    refine ⟨w1, T1, s1, k1, ?_⟩
    split
    next hp => exact .inl ⟨rfl, fun edit => by rw [run, if_pos hp], u, g1⟩
    next hp => exact .inr (.inr ⟨rfl, fun edit => by rw [run, if_neg hp], hv⟩)
  rw [hb, bind_ok (m := M.lift (.ok _)) (w' := w1) rfl]
  simp only [if_pos hv] at run
  cases hr : i.toUsize.resolve s.len with
  | none =>
    refine ⟨w1, T1, s1, k1, .inl ⟨?_, fun edit => ?_, u, g1⟩⟩
    · rfl
    · rw [run, hr]
  | some p =>
    obtain ⟨x, y⟩ := p
    dsimp only
    have look : ∀ {w' : World R N} {T' : Nat → List Tag} {idx : Nat}, w'.str = s →
        State L (Slice L root (⟨self, .new, true⟩ :: c) u 0 s.len) A T' P w' →
        ∃ w2 T2, (readBoundary u 0 s.len idx : M _ ε _) w' = (.ok (), w2) ∧ w2.str = s ∧ Keeps N T' T2 ∧
          State L (Slice L root (⟨self, .new, true⟩ :: c) u 0 s.len) A T2 P w2 := by
      intro w' T' idx e g
      obtain ⟨_, w2, T2, e2, s2, g2, k2, _⟩ := g.run (b := fun l => if 0 ≤ l ∧ l < s.len then u else self)
        (stable_slice (r := ⟨self, .new, true⟩))
        (runs_readBoundary (ε := ε) (idx := idx) (t := u) (lo := 0) (n := s.len)
          (fun l h1 h2 => .inl (by
            simp only [bases, if_pos (show l ≤ N by omega), if_pos (show 0 ≤ l ∧ l < s.len by omega)]))
          (by omega))
      exact ⟨w2, T2, e2, s2.trans e, k2, g2⟩
    obtain ⟨w2, T2, e2, s2, k2, g2⟩ := look (idx := x) s1 g1
    obtain ⟨w3, T3, e3, s3, k3, g3⟩ := look (idx := y) s2 g2
    have k3 := (k1.trans k2).trans k3
    rw [bind_ok e2, bind_ok e3]
    simp only [hr] at run
    cases ht : (Str.index (s.array.take s.len) x y : Res ε Bytes) with
    | ok t =>
      have hy : y ≤ s.len := by
        have := (index_ok ht).2
        simp only [List.length_take] at this
        omega
      obtain ⟨v, w4, e4, s4, g4⟩ := g3.throughRaw (ε := ε) (lo' := x) (hi' := y) (Nat.zero_le _) hy (by omega)
      refine ⟨w4, T3, s4.trans s3, k3, .inr (.inl ⟨v, x, y, ?_, by omega, g4, rfl, t, ht⟩)⟩
      rw [bind_ok (m := M.lift (.ok t)) (w' := w3) rfl, bind_ok e4]
      rfl
    | err e => unfold Str.index at ht; split at ht <;> cases ht
    | panic =>
      refine ⟨w3, T3, s3, k3, .inl ⟨rfl, fun edit => ?_, u, g3⟩⟩
      rw [run, ht]; rfl
    | ub => unfold Str.index at ht; split at ht <;> cases ht
    | diverge => unfold Str.index at ht; split at ht <;> cases ht

theorem indexes {i : IdxU8} : Indexes (ε := ε) L root A P i fun self => indexMutOn self i :=
  fun _ _ _ _ h hs => h.indexMutOn hs

theorem sim_editVia {i : IdxU8} {edit : Bytes → Bytes} {f : Tag → M (World R N) ε (Tag × Nat × Nat)}
    (hf : Indexes L root A P i f) (h : State L (Home L root fun _ => q) A T P w)
    (hs : Shape w.str) (hc : tagOf root q = caller) (hq : useAll q = q) :
    Same L (Home L root fun _ => q) A P T (do
      let (v, x, y) ← callMut caller f
      let v ← retagUnique v x y false
      readAt v x y
      writeAt v x y
      plain (ArrayString.indexMut i edit)) (ArrayString.indexMut i edit) w := by
  obtain ⟨w1, e1, s1, g1⟩ := h.fresh (ε := ε) (lo := 0) (hi := N + 1) (f := R.twoPhase caller)
    (φ' := fun _ => L.Main root (⟨w.next, .raw, false⟩ :: q)) (by omega)
    (fun l st _ _ hm hb => hc ▸ Top.two hm hb) (fun l st _ _ => by omega)
  obtain ⟨w2, e2, s2, g2⟩ := g1.unique (ε := ε) (lo := 0) (hi := N + 1) (t := w.next) (p := true)
    (φ' := fun _ => L.Main root (⟨w1.next, .new, true⟩ :: ⟨w.next, .raw, false⟩ :: q)) (by omega)
    (fun l st _ _ hm hb => L.main_unique true hm hb) (fun l st _ _ => by omega)
  have s2 := s2.trans s1
  obtain ⟨w3, T3, s3, k3, g3⟩ := hf _ _ _ _ g2 (by rw [s2]; exact hs)
  have s3 := s3.trans s2
  rw [s2] at g3
  have call : ∀ {r : Res ε (Tag × Nat × Nat)} {w4 : World R N}, Settled r →
      f w1.next w2 = (r, w3) →
      (release w1.next 0 (N + 1) : M (World R N) Empty Unit) w3 = (.ok (), w4) →
      callMut caller f w = (r, w4) := by
    intro r w4 hr e3 e4
    unfold callMut passUnique retagTwoPhase
    rw [bind_ok e1, bind_ok e2, protecting_run e3 hr e4]
  rcases g3 with ⟨e3, hp, u, g3⟩ | ⟨v, x, y, e3, hy, g3, _⟩ | ⟨e3, hp, _⟩
  case inr.inr =>
    refine ⟨.ub, w3, T3, ?_, ?_, ?_, fun h => ?_⟩
    · unfold callMut passUnique retagTwoPhase
      show M.bind _ _ w = _
      rw [M.bind, bind_ok e1, bind_ok e2, protecting_fail e3 (fun h => h.1 rfl)]
    · rw [hp, s3]
    · rw [hp]; exact .ub
    · rw [hp] at h; exact absurd rfl h.1
  · obtain ⟨w4, e4, s4, g4⟩ := g3.leave (ε := Empty)
    have g4 := (g4.hide (by simp)).using hq
    refine ⟨.panic, w4, T3, ?_, ?_, ?_, fun _ => ⟨g4.unused, k3, ?_⟩⟩
    · show M.bind _ _ w = _
      rw [M.bind, call (r := .panic) ⟨nofun, nofun⟩ e3 e4]
    · rw [hp, s4, s3]
    · rw [hp]; exact .panic
    · rw [hp]; exact hs
  · obtain ⟨w4, e4, s4, g4⟩ := g3.leave (ε := Empty)
    have g4 := g4.hide (by simp)
    obtain ⟨u, w5, e5, s5, g5, _⟩ := g4.again (ε := ε) (by omega)
    have g5 := g5.using hq
    obtain ⟨w6, e6, s6, g6⟩ := Using.read (ε := ε) (lo := x) (hi := y) g5 (Nat.le_refl _) (Nat.le_refl _) hy
    obtain ⟨w7, e7, s7, g7⟩ := Using.write (ε := ε) (lo := x) (hi := y) g6 (Nat.le_refl _) (Nat.le_refl _) hy hq
    refine sim_left (call settled_ok e3 e4) (s4.trans s3) k3 ?_
    refine sim_left e5 s5 .refl (sim_left e6 s6 .refl (sim_left e7 s7 .refl ?_))
    exact sim_plain g7.unused fun _ => shape_indexMut (by rw [s7, s6, s5, s4, s3]; exact hs)

theorem sim_editSlice {i : IdxU8} {edit : Bytes → Bytes} (h : State L (Home L root fun _ => q) A T P w)
    (hs : Shape w.str) (hc : tagOf root q = caller := by rfl) (hq : useAll q = q := by rfl) :
    Same L (Home L root fun _ => q) A P T (editSlice caller i edit : M _ ε _) (ArrayString.indexMut i edit) w :=
  sim_editVia indexes h hs hc hq

/-! ## Every call -/

theorem widest_le {size : α → Nat} {k : Nat} : ∀ {l : Script α}, (∀ a, some a ∈ l → size a ≤ k) →
    widest size l ≤ k
  | [], _ => Nat.zero_le _
  | none :: l, h => widest_le (l := l) fun a ha => h a (List.mem_cons_of_mem _ ha)
  | some _ :: _, h => Nat.max_le.2 ⟨h _ List.mem_cons_self,
      widest_le fun a ha => h a (List.mem_cons_of_mem _ ha)⟩

theorem widest_twice {total : Nat} (hN : N < total) {ws : Script (List Char)}
    (ht : ∀ t ∈ ws.filterMap id, N + 1 + (utf8 t).length ≤ total) :
    N + 1 + widest (fun s => max s.first.length s.second.length)
      (ws.map (Option.map fun w => (⟨utf8 w, utf8 w⟩ : ArrayString.AsRefTwice))) ≤ total := by
  have : widest (fun s => max s.first.length s.second.length)
      (ws.map (Option.map fun w => (⟨utf8 w, utf8 w⟩ : ArrayString.AsRefTwice))) ≤ total - (N + 1) :=
    widest_le fun a ha => by
      obtain ⟨x, hx, e⟩ := List.mem_map.1 ha
      obtain ⟨t, rfl, rfl⟩ := Option.map_eq_some_iff.1 e
      have h1 := ht t (by simpa using hx)
      simp only
      omega
  omega

theorem runs_discard {b : Nat → Tag} {B : Nat → R.St → Prop} {s : ArrayString N} {m : M (World R N) ε α}
    {Q : α → (Nat → List Tag) → Prop} (h : Runs L b B total s m T P Q) :
    Runs L b B total s (discard m) T P (fun _ _ => True) :=
  runs_bind h fun _ _ _ _ => runs_pure trivial

theorem runs_reading {b : Nat → Tag} {B : Nat → R.St → Prop} {s : ArrayString N}
    (hself : Usable b T caller 0 (N + 1)) (hh : N + 1 ≤ total) (hs : Shape s) :
    Runs L b B total s (reading caller : M _ ε _) T P (fun _ _ => True) :=
  runs_call hself hh fun u T1 P1 k1 c1 => runs_bind (runs_asStr c1.usable hh hs.2) (by
    rintro ⟨a, n⟩ T2 k2 ⟨rfl, c2⟩
    have := hs.2
    exact runs_pass c2.usable (by omega) fun _ _ _ _ hc => runs_read hc.usable (by omega))

/-- Every call, with the text behind any reference that may be read through. -/
theorem sim_execVia [ValidCapacity N] {op : Op}
    (g : State L (Home L root fun _ => q) A T P w) (hs : Shape w.str)
    (ht : ∀ t ∈ texts op, N + 1 + (utf8 t).length ≤ A.total) (ha : Usable A.b T arg (N + 1) A.total)
    (hc : tagOf root q = caller) (hq : useAll q = q) :
    Same L (Home L root fun _ => q) A P T (exec caller arg op) (Verif.exec op) w := by
  have hroot : ∀ l, l ≤ N → L.Stable caller (Home L root (fun _ => q) l) := stable_top hc
  have hN := A.lt
  have harg : ∀ {hi}, hi ≤ A.total → Usable A.b T arg (N + 1) hi := fun hh l h1 h2 => ha l h1 (by omega)
  have harg' : ∀ {b : Nat → Tag} {hi}, hi ≤ A.total → Usable (bases b A) (above N T) arg (N + 1) hi :=
    fun hh l h1 h2 => by
      have := ha l h1 (by omega)
      simpa [bases, above, if_neg (show ¬ l ≤ N by omega)] using this
  have hself : ∀ {T}, Usable (bases (fun _ => caller) A) T caller 0 (N + 1) :=
    usable_self fun _ _ => rfl
  have make {ε β : Type} [Verif.Kind ε] {m : M (World R N) ε (ArrayString N)} {r : Res ε β}
      {get : β → ArrayString N}
      (hm : RunsR L (bases (fun _ => caller) A)
        (props (Home L root fun _ => q) A) A.total w.str m (above N T) (above N P) r fun x y _ => x = get y ∧ Shape x) :
      Same L (Home L root fun _ => q) A P T
        (construct caller m) (Verif.construct r get) w :=
    sim_construct (g.runR (b := fun _ => caller) hroot hs hm) hc hq
  have query {ε α : Type} [Verif.Kind ε] {m : M (World R N) ε Unit} {f : ArrayString N → Res ε α}
      {out : α → Out} {Q : Unit → (Nat → List Tag) → Prop}
      (hm : Runs L (bases (fun _ => caller) A)
        (props (Home L root fun _ => q) A) A.total w.str m (above N T) (above N P) Q) :
      Same L (Home L root fun _ => q) A P T
        (query m f out) (Verif.query f out) w :=
    sim_query (b := fun _ => caller) g hroot hs hm
  cases op with
  | new => exact make runsR_new_
  | default => exact make runsR_new_
  | tryFromStr t =>
    exact make (get := id) (runsR_tryFromStr (harg' (ht t (by simp [texts]))) (ht t (by simp [texts])) (by omega))
  | parse t =>
    exact make (get := id) (runsR_tryFromStr (harg' (ht t (by simp [texts]))) (ht t (by simp [texts])) (by omega))
  | fromStrTruncate t =>
    exact make (get := id) (runsR_fromStrTruncate (harg' (ht t (by simp [texts]))) (ht t (by simp [texts])))
  | from_ t =>
    exact make (get := id) (runsR_fromStrTruncate (harg' (ht t (by simp [texts]))) (ht t (by simp [texts])))
  | tryFromIterator ws =>
    have hw : widest List.length (ws.map (Option.map utf8)) ≤ A.total - (N + 1) := widest_le fun a ha => by
      obtain ⟨x, hx, e⟩ := List.mem_map.1 ha
      obtain ⟨t, rfl, rfl⟩ := Option.map_eq_some_iff.1 e
      have := ht t (by simpa [texts] using hx)
      omega
    exact make (runsR_tryFromIterator (harg' (by omega)) (by omega))
  | fromIteratorTruncate ws =>
    have hw : widest (fun s => max s.first.length s.second.length)
        (ws.map (Option.map fun p => (⟨utf8 p.1, utf8 p.2⟩ : ArrayString.AsRefTwice))) ≤ A.total - (N + 1) :=
      widest_le fun a ha => by
        obtain ⟨x, hx, e⟩ := List.mem_map.1 ha
        obtain ⟨t, rfl, rfl⟩ := Option.map_eq_some_iff.1 e
        have h1 := ht t.1 (by simp only [texts, List.mem_flatMap]; exact ⟨t, by simpa using hx, by simp⟩)
        have h2 := ht t.2 (by simp only [texts, List.mem_flatMap]; exact ⟨t, by simpa using hx, by simp⟩)
        simp only
        omega
    exact make (runsR_fromIteratorTruncate (harg' (by omega)) (by omega))
  | collectStrs ws =>
    exact make (runsR_fromIteratorTruncate (harg' (widest_twice hN ht)) (widest_twice hN ht))
  | tryFromChars l => exact make runsR_tryFromChars
  | fromCharsTruncate l => exact make runsR_fromCharsTruncate
  | collectChars l => exact make runsR_fromCharsTruncate
  | tryFromUtf16 l => exact make (get := id) runsR_tryFromUtf16
  | fromUtf16Truncate l => exact make (get := id) runsR_fromUtf16Truncate
  | fromUtf16LossyTruncate l => exact make (get := id) runsR_fromUtf16LossyTruncate
  | tryPushStr t =>
    exact sim_method (hc := hc) (hq := hq) g fun d u w' hd s g => sim_tryPushStr g hd (ht t (by simp [texts])) (harg (ht t (by simp [texts]))) (by rw [s]; exact hs)
  | pushStrTruncate t =>
    exact sim_method (hc := hc) (hq := hq) g fun d u w' hd s g => sim_pushStrTruncate g hd (ht t (by simp [texts])) (harg (ht t (by simp [texts]))) (by rw [s]; exact hs)
  | tryPush c => exact sim_method (hc := hc) (hq := hq) g fun d u w' hd s g => sim_tryPush g hd (by rw [s]; exact hs)
  | truncate n => exact sim_method (hc := hc) (hq := hq) g fun d u w' hd s g => sim_truncate g hd (by rw [s]; exact hs)
  | pop => exact sim_method (hc := hc) (hq := hq) g fun d u w' hd s g => sim_pop g hd (by rw [s]; exact hs)
  | trim => exact sim_method (hc := hc) (hq := hq) g fun d u w' hd s g => sim_trim g hd (by rw [s]; exact hs)
  | remove i => exact sim_method (hc := hc) (hq := hq) g fun d u w' hd s g => sim_remove g hd (by rw [s]; exact hs)
  | retain f => exact sim_method (hc := hc) (hq := hq) g fun d u w' hd s g => sim_retain g hd (by rw [s]; exact hs)
  | tryInsert i c => exact sim_method (hc := hc) (hq := hq) g fun d u w' hd s g => sim_tryInsert g hd (by rw [s]; exact hs)
  | tryInsertStr i t =>
    exact sim_method (hc := hc) (hq := hq) g fun d u w' hd s g => sim_tryInsertStr g hd (ht t (by simp [texts])) (harg (ht t (by simp [texts]))) (by rw [s]; exact hs)
  | insertStrTruncate i t =>
    exact sim_method (hc := hc) (hq := hq) g fun d u w' hd s g =>
      sim_insertStrTruncate g hd (ht t (by simp [texts])) (harg (ht t (by simp [texts]))) (by rw [s]; exact hs)
  | clear => exact sim_method (hc := hc) (hq := hq) g fun d u w' hd s g => sim_clear g hd (by rw [s]; exact hs)
  | drain r es => exact sim_call (sim_drainCall g hs hc hq)
  | splitOff i => exact sim_call (sim_splitCall g hs hc hq)
  | replaceRange r t =>
    exact sim_method (hc := hc) (hq := hq) g fun d u w' hd s g =>
      sim_replaceRangeOn g hd (ht t (by simp [texts])) (harg (ht t (by simp [texts]))) (by rw [s]; exact hs)
  | extendChars l =>
    exact sim_method' (hc := hc) (hq := hq) g (fun _ _ _ _ => rfl) fun d u w' hd s g =>
      sim_extend g hd (by rw [s]; exact hs) fun t => runsR_fromCharsTruncate
  | extendStrs ws =>
    exact sim_method' (hc := hc) (hq := hq) g (fun _ _ _ _ => rfl) fun d u w' hd s g =>
      sim_extend g hd (by rw [s]; exact hs) fun t =>
        runsR_fromIteratorTruncate (harg' (widest_twice hN ht)) (widest_twice hN ht)
  | add t =>
    refine sim_right (m₀ := M.self) (b := w.str) rfl (make (get := id) ?_)
    exact runsR_add hself (harg' (ht t (by simp [texts]))) (ht t (by simp [texts])) hs
  | writeStr t =>
    exact sim_method (hc := hc) (hq := hq) g fun d u w' hd s g => sim_writeStr g hd (ht t (by simp [texts])) (harg (ht t (by simp [texts]))) (by rw [s]; exact hs)
  | writeFmt ws =>
    refine sim_method (hc := hc) (hq := hq) g fun d u w' hd s g => sim_callOwn g hd fun d' u w2 hd' s2 g2 => ?_
    have := sim_writeAll (arg := arg) (l := ws.map utf8) g2 hd' (fun b hb => by
      obtain ⟨t, h1, rfl⟩ := List.mem_map.1 hb
      exact ht t h1) ha (by rw [s2, s]; exact hs)
    rw [List.map_map] at this
    exact this
  | index i =>
    exact sim_right (m₀ := M.self) (b := w.str) rfl
      (sim_call (g.runR (b := fun _ => caller) hroot hs (runsR_index hself hN hs)))
  | indexMut i e => exact sim_call (sim_editSlice g hs hc hq)
  | asMutStr e => exact sim_call (sim_editText g hs hc hq)
  | asStr => exact query (runs_discard (runs_look hself hN hs.2))
  | asBytes =>
    refine query (Q := fun _ _ => True) (runs_bind (runs_asRefBytes hself hN hs.2) ?_)
    rintro ⟨a, n⟩ T1 k1 ⟨rfl, c1⟩
    have := hs.2
    exact runs_read c1.usable (by omega)
  | len => exact query (runs_discard (runs_len hself hN))
  | isEmpty => exact query (runs_discard (runs_asRefStr hself hN hs.2))
  | capacity => exact query (runs_pure (Q := fun _ _ => True) trivial)
  | eqStr t =>
    refine query (Q := fun _ _ => True) (runs_pass (harg' (ht t (by simp [texts]))) (ht t (by simp [texts])) fun u T1 P1 k1 c1 => ?_)
    exact runs_bind (runs_reading hself hN hs) fun _ T2 k2 _ => runs_read (c1.grow k2).usable (ht t (by simp [texts]))
  | hash => exact query (runs_reading hself hN hs)
  | display => exact query (runs_reading hself hN hs)

theorem sim_execAt [ValidCapacity N] {op : Op}
    (g : State L (Home L root fun _ => q) (argText R arg total hN) (fun _ => []) (fun _ => []) w) (hs : Shape w.str)
    (ht : ∀ t ∈ texts op, N + 1 + (utf8 t).length ≤ total)
    (hc : tagOf root q = caller) (hq : useAll q = q) :
    Same L (Home L root fun _ => q) (argText R arg total hN) (fun _ => []) (fun _ => [])
      (exec caller arg op) (Verif.exec op) w :=
  sim_execVia g hs ht (fun _ _ _ => Or.inl rfl) hc hq

theorem sim_exec [ValidCapacity N] {op : Op} (h : Ready L caller arg total w) (hs : Shape w.str)
    (ht : ∀ t ∈ texts op, N + 1 + (utf8 t).length ≤ total) :
    Same L (Home L caller fun _ => []) (argText R arg total hN) (fun _ => []) (fun _ => [])
      (exec caller arg op) (Verif.exec op) w :=
  sim_execAt (h.state hN) hs ht rfl rfl

end

end Verif.Borrow
