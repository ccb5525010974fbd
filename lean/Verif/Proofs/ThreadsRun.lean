import Verif.Proofs.Threads

/-!
# Programs that read, with other programs in between

Other threads may make shared references at any time, so a program must be fine however the shared references
grow between its steps.
-/

namespace Verif.Borrow
open Spec

variable {R : Rules} {L : Laws R} {N : Nat} {ε ε' α β γ δ : Type}

/-- All steps of the program may be taken, and it ends with `Q`.  The shared references made so far, by this
program or another, are `T`; those that it protects are `H`. -/
def Fine (b : Nat → Tag) (total : Nat) (s : ArrayString N) (Q : Res ε α → (Nat → List Tag) → List Held → Prop) :
    Reader N ε α → (Nat → List Tag) → List Held → Prop
  | .done r, T, H => Q r T H
  | .retag t lo hi protect k, T, H => Usable b T t lo hi ∧ hi ≤ total ∧
      ∀ u T', Grows T T' → Covers T' u lo hi →
        Fine b total s Q (k u) T' (if protect then ⟨u, lo, hi⟩ :: H else H)
  | .read t lo hi k, T, H => Usable b T t lo hi ∧ hi ≤ total ∧ Fine b total s Q k T H
  | .release t lo hi k, T, H => hi ≤ total ∧ Covers T t lo hi ∧ ∃ H', H = ⟨t, lo, hi⟩ :: H' ∧ Fine b total s Q k T H'
  | .look k, T, H => Fine b total s Q (k s) T H

section
variable {b : Nat → Tag} {total : Nat} {s : ArrayString N} {T : Nat → List Tag} {H : List Held}
  {Q : Res ε α → (Nat → List Tag) → List Held → Prop} {Q' : Res ε' β → (Nat → List Tag) → List Held → Prop}

theorem Fine.grow {p : Reader N ε α} {T' : Nat → List Tag} (h : Fine b total s Q p T H) (hg : Grows T T')
    (hq : ∀ r T T' H, Grows T T' → Q r T H → Q r T' H) : Fine b total s Q p T' H := by
  induction p generalizing T T' H with
  | done r => exact hq _ _ _ _ hg h
  | retag t lo hi protect k ih => exact ⟨h.1.grow hg, h.2.1, fun u T'' hg' hc => h.2.2 u T'' (hg.trans hg') hc⟩
  | read t lo hi k ih => exact ⟨h.1.grow hg, h.2.1, ih h.2.2 hg⟩
  | release t lo hi k ih =>
    obtain ⟨h1, h2, H', h3, h4⟩ := h
    exact ⟨h1, h2.grow hg, H', h3, ih h4 hg⟩
  | look k ih => exact ih s h hg

theorem Fine.weaken {p : Reader N ε α} {Q' : Res ε α → (Nat → List Tag) → List Held → Prop}
    (h : Fine b total s Q p T H) (hq : ∀ r T H, Q r T H → Q' r T H) : Fine b total s Q' p T H := by
  induction p generalizing T H with
  | done r => exact hq _ _ _ h
  | retag t lo hi protect k ih => exact ⟨h.1, h.2.1, fun u T' hg hc => ih u (h.2.2 u T' hg hc)⟩
  | read t lo hi k ih => exact ⟨h.1, h.2.1, ih h.2.2⟩
  | release t lo hi k ih =>
    obtain ⟨h1, h2, H', h3, h4⟩ := h
    exact ⟨h1, h2, H', h3, ih h4⟩
  | look k ih => exact ih s h

theorem Fine.onEnd {p : Reader N ε α} {g : Res ε α → Reader N ε' β} (h : Fine b total s Q p T H)
    (hq : ∀ r T H, Q r T H → Fine b total s Q' (g r) T H) : Fine b total s Q' (p.onEnd g) T H := by
  induction p generalizing T H with
  | done r => exact hq _ _ _ h
  | retag t lo hi protect k ih => exact ⟨h.1, h.2.1, fun u T' hg hc => ih u (h.2.2 u T' hg hc)⟩
  | read t lo hi k ih => exact ⟨h.1, h.2.1, ih h.2.2⟩
  | release t lo hi k ih =>
    obtain ⟨h1, h2, H', h3, h4⟩ := h
    exact ⟨h1, h2, H', h3, ih h4⟩
  | look k ih => exact ih s h

theorem bind_onEnd {p : Reader N ε α} {f : α → Reader N ε β} :
    p >>= f = p.onEnd fun
      | .ok a => f a
      | .err e => .done (.err e)
      | .panic => .done .panic
      | .ub => .done .ub
      | .diverge => .done .diverge := by
  show p.bind f = _
  induction p with
  | done r => cases r <;> rfl
  | retag t lo hi protect k ih => simp only [Reader.bind, Reader.onEnd, ih]
  | read t lo hi k ih => simp only [Reader.bind, Reader.onEnd, ih]
  | release t lo hi k ih => simp only [Reader.bind, Reader.onEnd, ih]
  | look k ih => simp only [Reader.bind, Reader.onEnd, ih]

theorem Fine.readEach {p : Reader N ε α} {t : Tag} {lo n : Nat} (h : Fine b total s Q p T H)
    (ht : Usable b T t lo (lo + n)) (hh : lo + n ≤ total) : Fine b total s Q (.readEach t lo n p) T H := by
  induction n generalizing lo with
  | zero => exact h
  | succ n ih =>
    exact ⟨fun l h1 h2 => ht l h1 (by omega), by omega, ih (fun l h1 h2 => ht l (by omega) (by omega)) (by omega)⟩

theorem Fine.bytewise {p : Reader N ε α} (h : Fine b total s Q p T H) : Fine b total s Q p.bytewise T H := by
  induction p generalizing T H with
  | done r => exact h
  | retag t lo hi protect k ih => exact ⟨h.1, h.2.1, fun u T' hg hc => ih u (h.2.2 u T' hg hc)⟩
  | read t lo hi k ih =>
    by_cases hl : lo ≤ hi
    · exact (ih h.2.2).readEach (by rw [Nat.add_sub_of_le hl]; exact h.1) (by rw [Nat.add_sub_of_le hl]; exact h.2.1)
    · unfold Reader.bytewise
      rw [Nat.sub_eq_zero_of_le (by omega)]
      exact ih h.2.2
  | release t lo hi k ih =>
    obtain ⟨h1, h2, H', h3, h4⟩ := h
    exact ⟨h1, h2, H', h3, ih h4⟩
  | look k ih => exact ih s h

end

/-- The program has the outcome `r` up to `Z`, and protects what it protected before. -/
def Ends (b : Nat → Tag) (total : Nat) (s : ArrayString N) (p : Reader N ε α) (T : Nat → List Tag) (r : Res ε β)
    (Z : α → β → (Nat → List Tag) → Prop) : Prop :=
  ∀ H, Fine b total s (fun r' T' H' => Match (fun a y => Z a y T') r' r ∧ Grows T T' ∧ (Settled r → H' = H)) p T H

/-- The same for one that returns. -/
abbrev Gives (b : Nat → Tag) (total : Nat) (s : ArrayString N) (p : Reader N ε α) (T : Nat → List Tag)
    (Q : α → (Nat → List Tag) → Prop) : Prop :=
  Ends b total s p T (.ok ()) fun a _ => Q a

section
variable {b : Nat → Tag} {total : Nat} {s : ArrayString N} {T : Nat → List Tag}
  {Z : α → β → (Nat → List Tag) → Prop} {Z' : γ → δ → (Nat → List Tag) → Prop}

theorem ends_bind {p : Reader N ε γ} {r : Res ε δ} {f : γ → Reader N ε α} {g : δ → Res ε β}
    (h : Ends b total s p T r Z')
    (h' : ∀ a y T', Grows T T' → Z' a y T' → Ends b total s (f a) T' (g y) Z) :
    Ends b total s (p >>= f) T (r >>= g) Z := by
  intro H
  rw [bind_onEnd]
  refine (h H).onEnd ?_
  rintro r' T' H' ⟨h1, h2, h3⟩
  cases h1 with
  | @ok a y hz =>
    obtain rfl := h3 settled_ok
    exact (h' a y T' h2 hz _).weaken fun _ _ _ ⟨h1, h4, h5⟩ => ⟨h1, h2.trans h4, h5⟩
  | err => exact ⟨.err, h2, fun _ => h3 settled_err⟩
  | panic => exact ⟨.panic, h2, fun _ => h3 settled_panic⟩
  | ub => exact ⟨.ub, h2, fun h => absurd rfl h.1⟩
  | diverge => exact ⟨.diverge, h2, fun h => absurd rfl h.2⟩

theorem ends_left {p : Reader N ε γ} {f : γ → Reader N ε α} {r : Res ε β} {Q : γ → (Nat → List Tag) → Prop}
    (h : Gives b total s p T Q) (h' : ∀ a T', Grows T T' → Q a T' → Ends b total s (f a) T' r Z) :
    Ends b total s (p >>= f) T r Z :=
  ends_bind (g := fun _ : Unit => r) h fun a _ T' => h' a T'

theorem ends_done {r : Res ε α} {r' : Res ε β} (h : Match (fun a y => Z a y T) r r') :
    Ends b total s (.done r) T r' Z := fun _ => ⟨h, .refl, fun _ => rfl⟩

theorem ends_lift {r : Res ε α} : Ends b total s (.lift r) T r (fun a y _ => a = y) := ends_done Match.rfl

theorem ends_pure {a : α} {y : β} (h : Z a y T) : Ends b total s (pure a : Reader N ε α) T (.ok y) Z :=
  ends_done (.ok h)

theorem ends_lift_bind {r : Res ε γ} {f : γ → Reader N ε α} {g : γ → Res ε β}
    (h : ∀ a, r = .ok a → Ends b total s (f a) T (g a) Z) :
    Ends b total s (.lift r >>= f) T (r >>= g) Z := by
  cases r with
  | ok a => exact h a rfl
  | err e => exact ends_done .err
  | panic => exact ends_done .panic
  | ub => exact ends_done .ub
  | diverge => exact ends_done .diverge

theorem ends_weaken {p : Reader N ε α} {r : Res ε β} {Z' : α → β → (Nat → List Tag) → Prop}
    (h : Ends b total s p T r Z) (hz : ∀ a y T', Z a y T' → Z' a y T') : Ends b total s p T r Z' := by
  refine fun H => (h H).weaken ?_
  rintro r' T' H' ⟨h1, h2, h3⟩
  refine ⟨?_, h2, h3⟩
  cases h1 with
  | ok hq => exact .ok (hz _ _ _ hq)
  | err => exact .err
  | panic => exact .panic
  | ub => exact .ub
  | diverge => exact .diverge

theorem ends_of_gives {p : Reader N ε α} {y : β} {Q : α → (Nat → List Tag) → Prop}
    (h : Gives b total s p T Q) (hz : ∀ a T', Q a T' → Z a y T') : Ends b total s p T (.ok y) Z := by
  refine fun H => (h H).weaken ?_
  rintro r' T' H' ⟨h1, h2, h3⟩
  cases h1 with
  | ok hq => exact ⟨.ok (hz _ _ hq), h2, fun _ => h3 settled_ok⟩

theorem ends_mapErr {p : Reader N ε α} {r : Res ε β} {f : ε → ε'} (h : Ends b total s p T r Z) :
    Ends b total s (.mapErr f p) T (r.mapErr f) Z := by
  refine fun H => (h H).onEnd ?_
  rintro r' T' H' ⟨h1, h2, h3⟩
  cases h1 with
  | ok hq => exact ⟨.ok hq, h2, fun _ => h3 settled_ok⟩
  | err => exact ⟨.err, h2, fun _ => h3 settled_err⟩
  | panic => exact ⟨.panic, h2, fun _ => h3 settled_panic⟩
  | ub => exact ⟨.ub, h2, fun h => absurd rfl h.1⟩
  | diverge => exact ⟨.diverge, h2, fun h => absurd rfl h.2⟩

theorem gives_get : Gives b total s (.get : Reader N ε _) T fun a _ => a = s :=
  fun _ => ⟨.ok rfl, .refl, fun _ => rfl⟩

theorem gives_read {t : Tag} {lo hi : Nat} (ht : Usable b T t lo hi) (hh : hi ≤ total) :
    Gives b total s (.readAt t lo hi : Reader N ε Unit) T fun _ _ => True :=
  fun _ => ⟨ht, hh, .ok trivial, .refl, fun _ => rfl⟩

theorem gives_shared {t : Tag} {lo hi : Nat} (ht : Usable b T t lo hi) (hh : hi ≤ total) :
    Gives b total s (.retagShared t lo hi false : Reader N ε Tag) T fun u T' => Covers T' u lo hi :=
  fun _ => ⟨ht, hh, fun _ _ hg hc => ⟨.ok hc, hg, fun _ => rfl⟩⟩

theorem ends_pass {t : Tag} {lo hi : Nat} {body : Tag → Reader N ε α} {r : Res ε β}
    (ht : Usable b T t lo hi) (hh : hi ≤ total)
    (hb : ∀ u T', Grows T T' → Covers T' u lo hi → Ends b total s (body u) T' r Z) :
    Ends b total s (.passShared t lo hi body) T r Z := by
  refine fun H => ⟨ht, hh, fun u T' hg hc => ?_⟩
  refine (hb u T' hg hc (⟨u, lo, hi⟩ :: H)).onEnd ?_
  rintro r' T'' H' ⟨h1, h2, h3⟩
  cases h1 with
  | ok hq => exact ⟨hh, hc.grow h2, H, h3 settled_ok, .ok hq, hg.trans h2, fun _ => rfl⟩
  | err => exact ⟨hh, hc.grow h2, H, h3 settled_err, .err, hg.trans h2, fun _ => rfl⟩
  | panic => exact ⟨hh, hc.grow h2, H, h3 settled_panic, .panic, hg.trans h2, fun _ => rfl⟩
  | ub => exact ⟨.ub, hg.trans h2, fun h => absurd rfl h.1⟩
  | diverge => exact ⟨.diverge, hg.trans h2, fun h => absurd rfl h.2⟩

theorem gives_through {t : Tag} {lo hi lo' hi' : Nat} (ht : Usable b T t lo hi) (hh : hi ≤ total)
    (h1 : lo ≤ lo') (h2 : hi' ≤ hi) :
    Gives b total s (.through t lo hi lo' hi' : Reader N ε Tag) T fun u T' => Covers T' u lo' hi' :=
  ends_left (ends_pass ht hh fun _ _ _ hc => gives_shared (hc.sub h1 h2).usable (by omega))
    fun _ _ _ hc => gives_shared hc.usable (by omega)

theorem ends_callShared {self : Tag} {body : Tag → Reader N ε α} {r : Res ε β}
    (hself : Usable b T self 0 (N + 1)) (hh : N + 1 ≤ total)
    (hb : ∀ u T', Grows T T' → Covers T' u 0 (N + 1) → Ends b total s (body u) T' r Z) :
    Ends b total s (.callShared self body) T r Z :=
  ends_left (gives_shared hself hh) fun _ _ hg hc =>
    ends_pass hc.usable hh fun u T' hg' hc' => hb u T' (hg.trans hg') hc'

theorem gives_callRef {self : Tag} {body : Tag → Reader N ε (Tag × Nat)} {n : Nat}
    (hself : Usable b T self 0 (N + 1)) (hh : N + 1 ≤ total) (hn : n ≤ N)
    (hb : ∀ u T', Grows T T' → Covers T' u 0 (N + 1) →
      Gives b total s (body u) T' fun r T' => r.2 = n ∧ Covers T' r.1 0 n) :
    Gives b total s (.callRef self body) T fun r T' => r.2 = n ∧ Covers T' r.1 0 n :=
  ends_left (ends_callShared hself hh hb) fun r _ _ hc => by
    obtain ⟨a, k⟩ := r
    obtain ⟨rfl, hc⟩ := hc
    exact ends_left (gives_shared hc.usable (by omega)) fun _ _ _ hc => ends_pure ⟨rfl, hc⟩

theorem gives_len {self : Tag} (hself : Usable b T self 0 (N + 1)) (hh : N + 1 ≤ total) :
    Gives b total s (.len self : Reader N ε Nat) T fun n _ => n = s.len :=
  ends_callShared hself hh fun u T' hg hc =>
    ends_left (gives_read (hc.sub (by omega) (by omega)).usable (by omega)) fun _ _ _ _ =>
      ends_left gives_get fun a _ _ ha => ends_pure (by rw [ha])

theorem gives_asRefBytes {self : Tag} (hself : Usable b T self 0 (N + 1)) (hh : N + 1 ≤ total) (hs : s.len ≤ N) :
    Gives b total s (.asRefBytes self : Reader N ε (Tag × Nat)) T fun r T' => r.2 = s.len ∧ Covers T' r.1 0 s.len :=
  gives_callRef hself hh hs fun u T' hg hc =>
    ends_left (gives_len hc.usable hh) fun _ _ g1 _ =>
    ends_left (gives_shared ((hc.grow g1).sub (by omega) (by omega)).usable (by omega)) fun _ _ g2 c2 =>
    ends_left (gives_through c2.usable (by omega) (by omega) (by omega)) fun _ _ g3 c3 =>
    ends_left (gives_len ((hc.grow g1).grow (g2.trans g3)).usable hh) fun n _ g4 e4 => by
      subst e4
      exact ends_left (gives_through (c3.grow g4).usable (by omega) (by omega) (by omega))
        fun _ _ _ c5 => ends_pure ⟨rfl, c5⟩

theorem gives_asRefStr {self : Tag} (hself : Usable b T self 0 (N + 1)) (hh : N + 1 ≤ total) (hs : s.len ≤ N) :
    Gives b total s (.asRefStr self : Reader N ε (Tag × Nat)) T fun r T' => r.2 = s.len ∧ Covers T' r.1 0 s.len :=
  gives_callRef hself hh hs fun u T' hg hc =>
    ends_left (gives_asRefBytes hc.usable hh hs) fun r _ g1 c1 => by
      obtain ⟨a, n⟩ := r
      obtain ⟨rfl, c1⟩ := c1
      exact ends_left (gives_read c1.usable (by omega)) fun _ _ g2 _ =>
        ends_left (gives_asRefBytes (hc.grow (g1.trans g2)).usable hh hs) fun r _ g3 c3 => by
          obtain ⟨a, n⟩ := r
          obtain ⟨rfl, c3⟩ := c3
          exact ends_left (gives_through c3.usable (by omega) (by omega) (by omega))
            fun _ _ _ c4 => ends_pure ⟨rfl, c4⟩

theorem gives_asStr {self : Tag} (hself : Usable b T self 0 (N + 1)) (hh : N + 1 ≤ total) (hs : s.len ≤ N) :
    Gives b total s (.asStr self : Reader N ε (Tag × Nat)) T fun r T' => r.2 = s.len ∧ Covers T' r.1 0 s.len :=
  gives_callRef hself hh hs fun _ _ _ hc => gives_asRefStr hc.usable hh hs

theorem gives_lookText {self : Tag} (hself : Usable b T self 0 (N + 1)) (hh : N + 1 ≤ total) (hs : s.len ≤ N) :
    Gives b total s (.lookText self : Reader N ε Nat) T fun n _ => n = s.len :=
  ends_left (gives_asStr hself hh hs) fun r _ _ hc => by
    obtain ⟨a, n⟩ := r
    obtain ⟨rfl, hc⟩ := hc
    exact ends_left (gives_read hc.usable (by omega)) fun _ _ _ _ => ends_pure rfl

theorem gives_readBoundary {t : Tag} {lo n idx : Nat} (ht : Usable b T t lo (lo + n)) (hh : lo + n ≤ total) :
    Gives b total s (.readBoundary t lo n idx : Reader N ε Unit) T fun _ _ => True :=
  ends_pass ht hh fun _ _ _ hc => by
    split
    · exact gives_read (hc.sub (by omega) (by omega)).usable (by omega)
    · exact ends_pure trivial

theorem gives_reading {self : Tag} (hself : Usable b T self 0 (N + 1)) (hh : N + 1 ≤ total) (hs : s.len ≤ N) :
    Gives b total s (.reading self : Reader N ε Unit) T fun _ _ => True :=
  ends_callShared hself hh fun u T1 k1 c1 => ends_left (gives_asStr c1.usable hh hs) (by
    rintro ⟨a, n⟩ T2 k2 ⟨rfl, c2⟩
    exact ends_pass c2.usable (by omega) fun _ _ _ hc => gives_read hc.usable (by omega))

/-- A `&` to a part is given back. -/
theorem ends_again {p : Reader N ε (Tag × Nat × Nat × Bytes)} {r : Res ε Bytes}
    (h : Ends b total s p T r fun a t T' => a.2.2.2 = t ∧ a.2.2.1 ≤ total ∧ Covers T' a.1 a.2.1 a.2.2.1) :
    Ends b total s (do
      let (a, x, y, t) ← p
      let a ← .retagShared a x y false
      pure (a, x, y, t)) T r fun a t T' => a.2.2.2 = t ∧ a.2.2.1 ≤ total ∧ Covers T' a.1 a.2.1 a.2.2.1 := by
  have e : (r >>= Res.ok : Res ε Bytes) = r := by cases r <;> rfl
  rw [← e]
  refine ends_bind h ?_
  rintro ⟨a, x, y, t⟩ t' T1 k1 ⟨rfl, h1, c1⟩
  exact ends_left (gives_shared c1.usable h1) fun u T2 k2 c2 => ends_pure ⟨rfl, h1, c2⟩

theorem ends_index {self : Tag} {i : IdxU8} (hself : Usable b T self 0 (N + 1)) (hh : N + 1 ≤ total) (hs : Shape s) :
    Ends b total s (.index self i : Reader N ε Bytes) T (s.index i) fun x y _ => x = y := by
  have h1 : Ends b total s (.callShared self fun self => do
      let (a, n) ← .asStr self
      let s ← .get
      let b ← .lift s.asStr
      let (a, x, y, t) ← .passShared a 0 n fun a =>
        match i.toUsize.resolve b.length with
        | none => .lift .panic
        | some (x, y) => do
          .readBoundary a 0 n x
          .readBoundary a 0 n y
          let t ← .lift (Str.index b x y)
          let a ← .retagShared a x y false
          pure (a, x, y, t)
      let a ← .retagShared a x y false
      pure (a, x, y, t) : Reader N ε (Tag × Nat × Nat × Bytes)) T (s.index i) fun a t T' =>
        a.2.2.2 = t ∧ a.2.2.1 ≤ total ∧ Covers T' a.1 a.2.1 a.2.2.1 := by
    refine ends_callShared hself hh fun u T1 k1 c1 => ?_
    refine ends_left (gives_asStr c1.usable hh hs.2) ?_
    rintro ⟨a, n⟩ T2 k2 ⟨rfl, c2⟩
    simp only at c2 ⊢
    have hN := hs.2
    refine ends_left gives_get fun s' T3 k3 e => ?_
    subst e
    refine ends_lift_bind fun bytes hb => ?_
    have hl : bytes.length = s'.len := by rw [asStr_take hb, List.length_take, hs.1]; omega
    refine ends_again (ends_pass (c2.grow k3).usable (by omega) fun u T4 k4 c4 => ?_)
    cases hr : i.toUsize.resolve bytes.length with
    | none => exact ends_done .panic
    | some q =>
      obtain ⟨x, y⟩ := q
      refine ends_left (gives_readBoundary (by rw [Nat.zero_add]; exact c4.usable) (by omega)) fun _ T5 k5 _ => ?_
      refine ends_left (gives_readBoundary (by rw [Nat.zero_add]; exact (c4.grow k5).usable) (by omega))
        fun _ T6 k6 _ => ?_
      have e : (Str.index bytes x y >>= Res.ok : Res ε Bytes) = Str.index bytes x y := by
        cases (Str.index bytes x y : Res ε Bytes) <;> rfl
      show Ends b total s' _ T6 (Str.index bytes x y) _
      have key := ends_lift_bind (b := b) (total := total) (s := s') (T := T6) (r := (Str.index bytes x y : Res ε Bytes))
        (f := fun t => (do
          let a ← .retagShared u x y false
          pure (a, x, y, t) : Reader N ε (Tag × Nat × Nat × Bytes))) (g := Res.ok)
        (Z := fun a t T' => a.2.2.2 = t ∧ a.2.2.1 ≤ total ∧ Covers T' a.1 a.2.1 a.2.2.1) fun t ht => by
          have hy := (index_ok ht).2
          exact ends_left (gives_shared (((c4.grow k5).grow k6).sub (Nat.zero_le _) (by omega)).usable (by omega))
            fun u T7 k7 c7 => ends_pure ⟨rfl, by simp only; omega, c7⟩
      rw [e] at key
      exact key
  have e : (s.index i >>= Res.ok : Res ε Bytes) = s.index i := by cases (s.index i : Res ε Bytes) <;> rfl
  rw [← e]
  refine ends_bind h1 ?_
  rintro ⟨a, x, y, t⟩ _ T1 k1 ⟨rfl, hy, c1⟩
  exact ends_left (gives_shared c1.usable hy) fun u T2 k2 c2 =>
    ends_left (gives_read c2.usable hy) fun _ _ _ _ => ends_pure rfl

theorem ends_call [Verif.Kind ε] {p : Reader N ε α} {f : ArrayString N → Res ε α} {out : α → Out}
    (h : Ends b total s p T (f s) fun x y _ => x = y) :
    Ends b total s (.call p out) T (Verif.query f out s).1 fun x y _ => x = y := by
  have e : (Verif.query f out s).1 = (f s).mapErr Verif.Kind.kind >>= fun a => .ok (out a) := by
    simp only [Verif.query, M.bind_apply, M.self_apply, M.lift_apply]
    cases f s <;> rfl
  rw [e]
  refine ends_bind (ends_mapErr h) ?_
  rintro a _ T' _ rfl
  exact ends_pure rfl

theorem ends_query [Verif.Kind ε] {p : Reader N ε Unit} {f : ArrayString N → Res ε α} {out : α → Out}
    {Q : Unit → (Nat → List Tag) → Prop} (h : Gives b total s p T Q) :
    Ends b total s (.query p f out) T (Verif.query f out s).1 fun x y _ => x = y :=
  ends_call (ends_left h fun _ _ _ _ => ends_left gives_get fun _ _ _ e => by subst e; exact ends_lift)

theorem gives_discard {p : Reader N ε α} {Q : α → (Nat → List Tag) → Prop} (h : Gives b total s p T Q) :
    Gives b total s (discard p) T fun _ _ => True :=
  ends_left h fun _ _ _ _ => ends_pure trivial

theorem ends_exec {self arg : Tag} {op : Op} {p : Reader N Failure Out} (hop : Reader.exec self arg op = some p)
    (hself : Usable b T self 0 (N + 1)) (harg : Usable b T arg (N + 1) total) (hN : N < total) (hs : Shape s)
    (ht : ∀ t ∈ texts op, N + 1 + (utf8 t).length ≤ total) :
    Ends b total s p T (Verif.exec op s).1 fun x y _ => x = y := by
  cases op <;> first | (cases hop; done) | skip
  all_goals obtain rfl := Option.some.inj hop
  case index i => exact ends_call (ends_index hself hN hs)
  case asStr => exact ends_query (gives_discard (gives_lookText hself hN hs.2))
  case asBytes =>
    refine ends_query (Q := fun _ _ => True) (ends_left (gives_asRefBytes hself hN hs.2) ?_)
    rintro ⟨a, n⟩ T1 k1 ⟨rfl, c1⟩
    have := hs.2
    exact gives_read c1.usable (by omega)
  case display => exact ends_query (gives_reading hself hN hs.2)
  case len => exact ends_query (gives_discard (gives_len hself hN))
  case isEmpty => exact ends_query (gives_discard (gives_asRefStr hself hN hs.2))
  case capacity => exact ends_query (Q := fun _ _ => True) (ends_pure trivial)
  case eqStr t =>
    have ht := ht t (by simp [texts])
    refine ends_query (Q := fun _ _ => True) (ends_pass (fun l h1 h2 => harg l h1 (by omega)) ht
      fun u T1 k1 c1 => ?_)
    exact ends_left (gives_reading (hself.grow k1) hN hs.2) fun _ T2 k2 _ => gives_read (c1.grow k2).usable ht
  case hash => exact ends_query (gives_reading hself hN hs.2)

/-- A thread makes its calls. -/
theorem ends_thread {self arg : Tag} {ops : List Op} (hops : ∀ op ∈ ops, op.shared = true)
    (hself : Usable b T self 0 (N + 1)) (harg : Usable b T arg (N + 1) total) (hN : N < total) (hs : Shape s)
    (ht : ∀ op ∈ ops, ∀ t ∈ texts op, N + 1 + (utf8 t).length ≤ total)
    (hset : ∀ op ∈ ops, Settled (Verif.exec op s).1) :
    Gives b total s (thread self arg ops) T fun rs _ => rs = ops.map fun op => (Verif.exec op s).1 := by
  induction ops generalizing T with
  | nil => exact ends_pure rfl
  | cons op ops ih =>
    have key : ∀ (r : Res Failure Out) T', Grows T T' → r = (Verif.exec op s).1 →
        Gives b total s (do
          let rs ← thread self arg ops
          pure (r :: rs) : Reader N Empty _) T' fun rs _ => rs = (op :: ops).map fun op => (Verif.exec op s).1 := by
      rintro r T' hg rfl
      refine ends_left (ih (fun op h => hops op (List.mem_cons_of_mem _ h)) (hself.grow hg) (harg.grow hg)
        (fun op h => ht op (List.mem_cons_of_mem _ h)) fun op h => hset op (List.mem_cons_of_mem _ h)) ?_
      rintro _ T2 _ rfl
      exact ends_pure rfl
    obtain ⟨p, hp, _⟩ := Reader.run_exec (N := N) (self := self) (arg := arg) (hops op List.mem_cons_self)
    intro H
    unfold thread
    rw [hp]
    have hset := hset op List.mem_cons_self
    refine (((ends_exec hp hself harg hN hs (ht op List.mem_cons_self)) H).bytewise).onEnd ?_
    rintro r' T' H' ⟨h1, h2, h3⟩
    have hr : r' = (Verif.exec op s).1 := by
      generalize (Verif.exec op s).1 = x at h1
      cases h1 with
      | ok h => rw [h]
      | err => rfl
      | panic => rfl
      | ub => rfl
      | diverge => rfl
    obtain rfl := h3 hset
    rw [← hr] at hset
    cases r' with
    | ub => exact absurd rfl hset.1
    | diverge => exact absurd rfl hset.2
    | ok a => exact (key _ T' h2 hr _).weaken fun _ _ _ ⟨h1, h4, h5⟩ => ⟨h1, h2.trans h4, h5⟩
    | err e => exact (key _ T' h2 hr _).weaken fun _ _ _ ⟨h1, h4, h5⟩ => ⟨h1, h2.trans h4, h5⟩
    | panic => exact (key _ T' h2 hr _).weaken fun _ _ _ ⟨h1, h4, h5⟩ => ⟨h1, h2.trans h4, h5⟩

end

/-! ## Several threads -/

section
variable {b : Nat → Tag} {B : Nat → R.St → Prop} {total : Nat} {s : ArrayString N} {T P : Nat → List Tag}
  {w : World R N} {ts : List (Reader N Empty α)} {Q : Nat → Res Empty α → Prop}

theorem Inv.giveUp {u : Tag} {lo hi : Nat} (h : Inv L b B total T P w) (hh : hi ≤ total) (hu : Covers T u lo hi) :
    ∃ w', (Borrow.release u lo hi : M (World R N) ε Unit) w = (.ok (), w') ∧ w'.str = w.str ∧
      Inv L b B total T (fun l => if lo ≤ l ∧ l < hi then (P l).filter (· ≠ u) else P l) w' := by
  obtain ⟨mem', k1, k2⟩ := touch_run (ε := ε) (w := w) (lo := lo) (hi := hi) (f := R.release u)
    (Q := fun l st => l < total → L.Side (b l) (B l) (T l)
      (if lo ≤ l ∧ l < hi then (P l).filter (· ≠ u) else P l) st ∧ L.Below w.next st)
    (fun l e1 e2 => by
      obtain ⟨c1, c2⟩ := h l (by omega)
      obtain ⟨st', d1, d2, d3⟩ := L.side_release c1 c2 (hu l e1 e2)
      refine ⟨st', d1, fun _ => ⟨?_, d3⟩⟩
      rw [if_pos ⟨e1, e2⟩]
      exact d2)
    (fun l e1 e2 => by
      rw [if_neg e1]
      exact h l e2)
  exact ⟨{ w with mem := mem' }, k1, rfl, k2⟩

/-- The threads may go on, and what is protected is protected by one of them. -/
def Pool (L : Laws R) (b : Nat → Tag) (B : Nat → R.St → Prop) (total : Nat) (s : ArrayString N)
    (Q : Nat → Res Empty α → Prop) (ts : List (Reader N Empty α)) (w : World R N) : Prop :=
  w.str = s ∧ ∃ (T P : Nat → List Tag) (H : Nat → List Held), Inv L b B total T P w ∧
    (∀ l u, u ∈ P l → ∃ i h, i < ts.length ∧ h ∈ H i ∧ h.tag = u ∧ h.lo ≤ l ∧ l < h.hi) ∧
    ∀ i p, ts[i]? = some p → Fine b total s (fun r _ H => Q i r ∧ H = []) p T (H i)

theorem Pool.next {i : Nat} {p p' : Reader N Empty α} {w' : World R N} {T P P' : Nat → List Tag}
    {H : Nat → List Held} {H' : List Held} {T' : Nat → List Tag} (hs : w'.str = s) (hi : Inv L b B total T' P' w')
    (hg : Grows T T') (hp : ts[i]? = some p)
    (hP : ∀ l u, u ∈ P l → ∃ i h, i < ts.length ∧ h ∈ H i ∧ h.tag = u ∧ h.lo ≤ l ∧ l < h.hi)
    (hP' : ∀ l u, u ∈ P' l → (∃ h ∈ H', h.tag = u ∧ h.lo ≤ l ∧ l < h.hi) ∨
      (u ∈ P l ∧ ∀ h ∈ H i, h.tag = u → h.lo ≤ l → l < h.hi → h ∈ H'))
    (ht : ∀ i p, ts[i]? = some p → Fine b total s (fun r _ H => Q i r ∧ H = []) p T (H i))
    (hf : Fine b total s (fun r _ H => Q i r ∧ H = []) p' T' H') :
    Pool L b B total s Q (ts.set i p') w' := by
  have hlt : i < ts.length := (List.getElem?_eq_some_iff.1 hp).1
  refine ⟨hs, T', P', fun j => if j = i then H' else H j, hi, fun l u hu => ?_, fun j q hq => ?_⟩
  · rw [List.length_set]
    rcases hP' l u hu with ⟨h, h1, h2⟩ | ⟨h1, h2⟩
    · exact ⟨i, h, hlt, by simp only [if_pos]; exact h1, h2⟩
    · obtain ⟨j, h, h3, h4, h5, h6, h7⟩ := hP l u h1
      refine ⟨j, h, h3, ?_, h5, h6, h7⟩
      by_cases hj : j = i
      · subst hj; simp only [if_pos]; exact h2 h h4 h5 h6 h7
      · simp only [if_neg hj]; exact h4
  · by_cases hj : j = i
    · subst hj
      rw [List.getElem?_set_self hlt] at hq
      obtain rfl := Option.some.inj hq
      simp only [if_pos]; exact hf
    · rw [List.getElem?_set_ne (Ne.symm hj)] at hq
      simp only [if_neg hj]
      exact (ht j q hq).grow hg fun _ _ _ _ _ h => h

theorem Pool.turn (h : Pool L b B total s Q ts w) (i : Nat) :
    Pool L b B total s Q (turn ts w i).1 (turn ts w i).2 := by
  unfold Borrow.turn
  cases hp : ts[i]? with
  | none => exact h
  | some p =>
    obtain ⟨hs, T, P, H, hi, hP, ht⟩ := h
    have hf := ht i p hp
    simp only
    cases p with
    | done r =>
      exact Pool.next hs hi .refl hp hP (fun l u hu => .inr ⟨hu, fun h hh _ _ _ => hh⟩) ht hf
    | look k =>
      refine Pool.next hs hi .refl hp hP (fun l u hu => .inr ⟨hu, fun h hh _ _ _ => hh⟩) ht ?_
      simp only [Reader.step, hs]; exact hf
    | read t lo hi' k =>
      obtain ⟨h1, h2, h3⟩ := hf
      obtain ⟨mem', e1, e2⟩ := touch_run (ε := Empty) (w := w) (lo := lo) (hi := hi') (f := R.read t)
        (Q := fun l st => l < total → L.Side (b l) (B l) (T l) (P l) st ∧ L.Below w.next st)
        (fun l g1 g2 => by
          obtain ⟨st', g1, g2, g3⟩ := L.side_read (hi l (by omega)).1 (hi l (by omega)).2 (h1 l g1 g2)
          exact ⟨st', g1, fun _ => ⟨g2, g3⟩⟩)
        (fun l _ hl => hi l hl)
      have e1 : (readAt t lo hi' : M (World R N) Empty Unit) w = _ := e1
      simp only [Reader.step, e1]
      exact Pool.next (T := T) (P := P) hs e2 .refl hp hP (fun l u hu => .inr ⟨hu, fun h hh _ _ _ => hh⟩) ht h3
    | retag t lo hi' protect k =>
      obtain ⟨h1, h2, h3⟩ := hf
      obtain ⟨u, w', e1, e2, e3⟩ := shared_run (ε := Empty) (p := protect) hi h1 h2
      simp only [Reader.step, e1]
      refine Pool.next (e2.trans hs) e3 ins_grows hp hP (fun l x hx => ?_) ht (h3 u _ ins_grows ins_covers)
      cases protect with
      | false => exact .inr ⟨hx, fun h hh _ _ _ => hh⟩
      | true =>
        simp only [if_true, ins] at hx ⊢
        split at hx
        next hl =>
          rcases List.mem_cons.1 hx with rfl | hx
          · exact .inl ⟨_, List.mem_cons_self, rfl, hl.1, hl.2⟩
          · exact .inr ⟨hx, fun h hh _ _ _ => List.mem_cons_of_mem _ hh⟩
        next => exact .inr ⟨hx, fun h hh _ _ _ => List.mem_cons_of_mem _ hh⟩
    | release t lo hi' k =>
      obtain ⟨h1, h2, H', h3, h4⟩ := hf
      obtain ⟨w', e1, e2, e3⟩ := hi.giveUp (ε := Empty) h1 h2
      simp only [Reader.step, e1]
      refine Pool.next (e2.trans hs) e3 .refl hp hP (fun l x hx => .inr ?_) ht h4
      rw [h3]
      by_cases hl : lo ≤ l ∧ l < hi'
      · simp only [if_pos hl, List.mem_filter, ne_eq, decide_eq_true_eq] at hx
        refine ⟨hx.1, fun h hh g1 _ _ => ?_⟩
        rcases List.mem_cons.1 hh with rfl | hh
        · exact absurd g1.symm hx.2
        · exact hh
      · simp only [if_neg hl] at hx
        refine ⟨hx, fun h hh _ g1 g2 => ?_⟩
        rcases List.mem_cons.1 hh with rfl | hh
        · exact absurd ⟨g1, g2⟩ hl
        · exact hh

theorem Pool.interleave (h : Pool L b B total s Q ts w) (is : List Nat) :
    Pool L b B total s Q (interleave ts w is).1 (interleave ts w is).2 := by
  induction is generalizing ts w with
  | nil => exact h
  | cons i is ih => exact ih (h.turn i)

theorem length_turn {i : Nat} : (turn ts w i).1.length = ts.length := by
  unfold turn
  split
  · rfl
  · exact List.length_set

theorem length_interleave {is : List Nat} : (interleave ts w is).1.length = ts.length := by
  induction is generalizing ts w with
  | nil => rfl
  | cons i is ih => exact ih.trans length_turn

/-- What a thread that has ended has found. -/
theorem Pool.done {i : Nat} {r : Res Empty α} (h : Pool L b B total s Q ts w) (hi : ts[i]? = some (.done r)) :
    Q i r := by
  obtain ⟨_, T, P, H, _, _, h⟩ := h
  exact (h i _ hi).1

/-- When all have ended, nothing is protected. -/
theorem Pool.all (h : Pool L b B total s Q ts w) (hd : ∀ p ∈ ts, ∃ r, p = .done r) :
    ∃ T, Inv L b B total T (fun _ => []) w := by
  obtain ⟨_, T, P, H, h1, h2, h3⟩ := h
  have : P = fun _ => [] := by
    funext l
    refine List.eq_nil_iff_forall_not_mem.2 fun u hu => ?_
    obtain ⟨i, h, hi, hh, _⟩ := h2 l u hu
    obtain ⟨r, hr⟩ := hd _ (List.getElem_mem hi)
    have := (h3 i _ (List.getElem?_eq_getElem hi))
    rw [hr] at this
    rw [this.2] at hh
    cases hh
  exact ⟨T, this ▸ h1⟩

end

/-! ## Getting to the end -/

section
variable {ts : List (Reader N Empty α)} {w : World R N}

theorem interleave_append {is js : List Nat} :
    interleave ts w (is ++ js) = interleave (interleave ts w is).1 (interleave ts w is).2 js := by
  induction is generalizing ts w with
  | nil => rfl
  | cons i is ih => exact ih

/-- The state after `n` steps of an endless schedule. -/
def atTime (ts : List (Reader N Empty α)) (w : World R N) (σ : Nat → Nat) (n : Nat) :
    List (Reader N Empty α) × World R N := interleave ts w ((List.range n).map σ)

theorem atTime_succ {σ : Nat → Nat} {n : Nat} :
    atTime ts w σ (n + 1) = turn (atTime ts w σ n).1 (atTime ts w σ n).2 (σ n) := by
  unfold atTime
  rw [List.range_succ, List.map_append, interleave_append]
  rfl

theorem turn_other {i j : Nat} (h : j ≠ i) : (turn ts w j).1[i]? = ts[i]? := by
  unfold turn
  split
  · rfl
  · exact List.getElem?_set_ne h

theorem turn_self {i : Nat} {p : Reader N Empty α} (h : ts[i]? = some p) : (turn ts w i).1[i]? = some (p.step w).1 := by
  unfold turn
  rw [h]
  exact List.getElem?_set_self (List.getElem?_eq_some_iff.1 h).1

theorem turn_done {i j : Nat} {r : Res Empty α} (h : ts[i]? = some (.done r)) :
    (turn ts w j).1[i]? = some (.done r) := by
  by_cases hj : j = i
  · subst hj; exact turn_self h
  · rw [turn_other hj, h]

theorem done_stays {σ : Nat → Nat} {i n m : Nat} {r : Res Empty α} (h : (atTime ts w σ n).1[i]? = some (.done r))
    (hm : n ≤ m) : (atTime ts w σ m).1[i]? = some (.done r) := by
  induction m with
  | zero => obtain rfl := Nat.le_zero.1 hm; exact h
  | succ m ih =>
    by_cases hn : n = m + 1
    · subst hn; exact h
    · rw [atTime_succ]; exact turn_done (ih (by omega))

/-- Nothing happens to a thread until its turn. -/
theorem waits {σ : Nat → Nat} {i n : Nat} {p : Reader N Empty α} (h : (atTime ts w σ n).1[i]? = some p)
    (hσ : ∃ m, n ≤ m ∧ σ m = i) : ∃ m, σ m = i ∧ (atTime ts w σ m).1[i]? = some p := by
  obtain ⟨m, h1, h2⟩ := hσ
  obtain ⟨d, rfl⟩ := Nat.exists_eq_add_of_le h1
  induction d generalizing n with
  | zero => exact ⟨n, h2, h⟩
  | succ d ih =>
    by_cases hn : σ n = i
    · exact ⟨n, hn, h⟩
    · refine ih (n := n + 1) (by rw [atTime_succ, turn_other hn]; exact h) (by omega) ?_
      rw [Nat.add_assoc, Nat.add_comm 1 d]; exact h2

/-- A thread that has a turn again and again comes to its end. -/
theorem ends_in_time {σ : Nat → Nat} {i : Nat} (hσ : ∀ n, ∃ m, n ≤ m ∧ σ m = i) {p : Reader N Empty α} {n : Nat}
    (h : (atTime ts w σ n).1[i]? = some p) : ∃ m r, (atTime ts w σ m).1[i]? = some (.done r) := by
  induction p generalizing n with
  | done r => exact ⟨n, r, h⟩
  | retag t lo hi protect k ih =>
    obtain ⟨m, h1, h2⟩ := waits h (hσ n)
    have h3 := turn_self (w := (atTime ts w σ m).2) h2
    rw [← h1, ← atTime_succ, h1] at h3
    simp only [Reader.step] at h3
    split at h3
    · exact ih _ h3
    · exact ⟨_, _, h3⟩
  | read t lo hi k ih =>
    obtain ⟨m, h1, h2⟩ := waits h (hσ n)
    have h3 := turn_self (w := (atTime ts w σ m).2) h2
    rw [← h1, ← atTime_succ, h1] at h3
    simp only [Reader.step] at h3
    split at h3
    · exact ih h3
    · exact ⟨_, _, h3⟩
  | release t lo hi k ih =>
    obtain ⟨m, h1, h2⟩ := waits h (hσ n)
    have h3 := turn_self (w := (atTime ts w σ m).2) h2
    rw [← h1, ← atTime_succ, h1] at h3
    simp only [Reader.step] at h3
    split at h3
    · exact ih h3
    · exact ⟨_, _, h3⟩
  | look k ih =>
    obtain ⟨m, h1, h2⟩ := waits h (hσ n)
    have h3 := turn_self (w := (atTime ts w σ m).2) h2
    rw [← h1, ← atTime_succ, h1] at h3
    exact ih _ h3

/-- All come to their end. -/
theorem all_end {σ : Nat → Nat} (hσ : ∀ i, i < ts.length → ∀ n, ∃ m, n ≤ m ∧ σ m = i) :
    ∃ n, ∀ i, i < ts.length → ∃ r, (atTime ts w σ n).1[i]? = some (.done r) := by
  have key : ∀ k, k ≤ ts.length → ∃ n, ∀ i, i < k → ∃ r, (atTime ts w σ n).1[i]? = some (.done r) := by
    intro k
    induction k with
    | zero => exact fun _ => ⟨0, fun _ h => absurd h (Nat.not_lt_zero _)⟩
    | succ k ih =>
      intro hk
      obtain ⟨n, hn⟩ := ih (by omega)
      obtain ⟨m, r, hm⟩ := ends_in_time (ts := ts) (w := w) (n := 0) (hσ k hk) (List.getElem?_eq_getElem hk)
      refine ⟨max n m, fun i hi => ?_⟩
      by_cases h : i = k
      · subst h; exact ⟨r, done_stays hm (Nat.le_max_right _ _)⟩
      · obtain ⟨r', hr⟩ := hn i (by omega)
        exact ⟨r', done_stays hr (Nat.le_max_left _ _)⟩
  exact key _ (Nat.le_refl _)

end

end Verif.Borrow
