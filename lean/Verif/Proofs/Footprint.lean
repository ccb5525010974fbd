import Verif.Model.Footprint
import Verif.Proofs.BorrowOps

/-! The accesses of a run cover what it uses (`At`): rules for the parts that the methods are made of. -/

namespace Verif.Borrow
open Spec

section at_
variable {R : Rules} {N : Nat} {ε ε' α β : Type}

/-- The array has its length. -/
def Full (s : ArrayString N) : Prop := s.array.length = N

/-- What a run may do: nothing is forgotten, a byte that changed was written, and with `F` the text
argument was not written. -/
structure Cover (F : Prop) (w w' : World (traced R) N) : Prop where
  full : Full w'.str
  read : ∀ l, (marks w l).read = true → (marks w' l).read = true
  written : ∀ l, (marks w l).written = true → (marks w' l).written = true
  changed : ∀ l ≤ N, byteAt w'.str l ≠ byteAt w.str l → (marks w' l).written = true
  text : F → ∀ l, N < l → (marks w' l).written = true → (marks w l).written = true

theorem Cover.refl {F : Prop} {w : World (traced R) N} (h : Full w.str) : Cover F w w :=
  ⟨h, fun _ h => h, fun _ h => h, fun _ _ h => absurd rfl h, fun _ _ _ h => h⟩

theorem Cover.trans {F : Prop} {w w1 w2 : World (traced R) N} (h : Cover F w w1) (h' : Cover F w1 w2) :
    Cover F w w2 := by
  refine ⟨h'.full, fun l x => h'.read l (h.read l x), fun l x => h'.written l (h.written l x), ?_,
    fun f l hl x => h.text f l hl (h'.text f l hl x)⟩
  intro l hl x
  by_cases e : byteAt w1.str l = byteAt w.str l
  · exact h'.changed l hl (by rw [e]; exact x)
  · exact h'.written l (h.changed l hl e)

/-- The run of `m` covers its accesses: bytes that change are marked as written, and the outcome is the
same with any other string that agrees on the bytes marked as read. -/
def At (F : Prop) (w : World (traced R) N) (m : M (World (traced R) N) ε α)
    (Q : α → ArrayString N → (Nat → Mark) → Prop) : Prop :=
  Full w.str → ∀ r w', m w = (r, w') → Settled r →
    Cover F w w' ∧ (∀ a, r = .ok a → Q a w'.str (marks w')) ∧
    ∀ s2 : ArrayString N, Full s2 →
      (∀ l ≤ N, ((marks w' l).read = true ∨ (marks w l).written = true) → byteAt s2 l = byteAt w.str l) →
      ∃ s2', m { w with str := s2 } = (r, { w' with str := s2' }) ∧ Full s2' ∧
        ∀ l ≤ N, ((marks w' l).written = true ∨ byteAt s2 l = byteAt w.str l) → byteAt s2' l = byteAt w'.str l

variable {F : Prop} {w : World (traced R) N}

theorem at_mono {m : M (World (traced R) N) ε α} {Q Q' : α → ArrayString N → (Nat → Mark) → Prop}
    (h : At F w m Q) (hQ : ∀ a s k, Q a s k → Q' a s k) : At F w m Q' := by
  intro hf r w' e hr
  obtain ⟨h1, h2, h3⟩ := h hf r w' e hr
  exact ⟨h1, fun a ha => hQ _ _ _ (h2 a ha), h3⟩

theorem at_bind {m : M (World (traced R) N) ε α} {f : α → M (World (traced R) N) ε β}
    {Q : α → ArrayString N → (Nat → Mark) → Prop} {Q' : β → ArrayString N → (Nat → Mark) → Prop}
    (h : At F w m Q)
    (hf : ∀ a w1, Cover F w w1 → Q a w1.str (marks w1) → At F w1 (f a) Q') : At F w (m >>= f) Q' := by
  intro hfull r w' e hr
  have stop : ∀ (r0 : Res ε α) (w1 : World (traced R) N), m w = (r0, w1) →
      (∀ v v1, m v = (r0, v1) → (m >>= f) v = (r, v1)) → w1 = w' → Settled r0 → (∀ a, r ≠ .ok a) →
      Cover F w w' ∧ (∀ a, r = .ok a → Q' a w'.str (marks w')) ∧
      ∀ s2 : ArrayString N, Full s2 →
        (∀ l ≤ N, ((marks w' l).read = true ∨ (marks w l).written = true) → byteAt s2 l = byteAt w.str l) →
        ∃ s2', (m >>= f) { w with str := s2 } = (r, { w' with str := s2' }) ∧ Full s2' ∧
          ∀ l ≤ N, ((marks w' l).written = true ∨ byteAt s2 l = byteAt w.str l) →
            byteAt s2' l = byteAt w'.str l := by
    intro r0 w1 e0 hrun hw hs hno
    subst w1
    obtain ⟨h1, -, h3⟩ := h hfull _ _ e0 hs
    refine ⟨h1, fun a ha => absurd ha (hno a), fun s2 hs2 hag => ?_⟩
    obtain ⟨s2', e2, h4⟩ := h3 s2 hs2 hag
    exact ⟨s2', hrun _ _ e2, h4⟩
  cases hm : m w with
  | mk r0 w1 =>
    have e' : M.bind m f w = (r, w') := e
    rw [M.bind, hm] at e'
    cases r0 with
    | ok a =>
      obtain ⟨h1, h2, h3⟩ := h hfull _ _ hm ⟨nofun, nofun⟩
      obtain ⟨g1, g2, g3⟩ := hf a w1 h1 (h2 a rfl) h1.full r w' e' hr
      refine ⟨h1.trans g1, g2, fun s2 hs2 hag => ?_⟩
      obtain ⟨s3, e3, f3, a3⟩ := h3 s2 hs2 fun l hl x => hag l hl (x.imp (g1.read l) id)
      obtain ⟨s4, e4, f4, a4⟩ := g3 s3 f3 fun l hl x =>
        a3 l hl (x.elim (fun y => .inr (hag l hl (.inl y))) .inl)
      refine ⟨s4, ?_, f4, fun l hl x => a4 l hl (x.imp id fun y => a3 l hl (.inr y))⟩
      show M.bind m f _ = _
      rw [M.bind, e3]
      exact e4
    | err x =>
      cases e'
      exact stop _ _ hm (fun v v1 hv => by show M.bind m f v = _; rw [M.bind, hv]) rfl ⟨nofun, nofun⟩ nofun
    | panic =>
      cases e'
      exact stop _ _ hm (fun v v1 hv => by show M.bind m f v = _; rw [M.bind, hv]) rfl ⟨nofun, nofun⟩ nofun
    | ub => cases e'; exact absurd rfl hr.1
    | diverge => cases e'; exact absurd rfl hr.2

theorem at_pure {a : α} {Q : α → ArrayString N → (Nat → Mark) → Prop} (h : Full w.str → Q a w.str (marks w)) :
    At F w (pure a : M (World (traced R) N) ε α) Q := by
  intro hf r w' e hr
  cases e
  exact ⟨.refl hf, fun _ e => by cases e; exact h hf,
    fun s2 hs2 hag => ⟨s2, rfl, hs2, fun l hl x => x.elim (fun y => hag l hl (.inr y)) id⟩⟩

theorem at_lift {r : Res ε α} {Q : α → ArrayString N → (Nat → Mark) → Prop}
    (h : ∀ a, r = .ok a → Q a w.str (marks w)) : At F w (M.lift r : M (World (traced R) N) ε α) Q := by
  intro hf r w' e hr
  cases e
  exact ⟨.refl hf, h,
    fun s2 hs2 hag => ⟨s2, rfl, hs2, fun l hl x => x.elim (fun y => hag l hl (.inr y)) id⟩⟩

theorem at_liftBind {r : Res ε α} {f : α → M (World (traced R) N) ε β} {Q : β → ArrayString N → (Nat → Mark) → Prop}
    (h : ∀ a, r = .ok a → At F w (f a) Q) : At F w (M.lift r >>= f) Q := by
  cases r with
  | ok a => exact h a rfl
  | err x => exact at_lift (r := .err x) nofun
  | panic => exact at_lift (r := .panic) nofun
  | ub => exact at_lift (r := .ub) nofun
  | diverge => exact at_lift (r := .diverge) nofun

theorem at_tryBind [ErrFrom ε ε'] {r : Res ε α} {f : α → M (World (traced R) N) ε' β}
    {Q : β → ArrayString N → (Nat → Mark) → Prop}
    (h : ∀ a, r = .ok a → At F w (f a) Q) : At F w (M.try_ r >>= f) Q := by
  refine at_liftBind (r := r.mapErr ErrFrom.from_) fun a e => h a ?_
  cases r <;> simp [Res.mapErr] at e
  rw [e]

theorem settled_mapErr {r : Res ε α} {f : ε → ε'} (h : Settled (r.mapErr f)) : Settled r := by
  cases r <;> first | exact absurd rfl h.1 | exact absurd rfl h.2 | exact ⟨nofun, nofun⟩

theorem at_mapErr {m : M (World (traced R) N) ε α} {f : ε → ε'} {Q : α → ArrayString N → (Nat → Mark) → Prop}
    (h : At F w m Q) : At F w (M.mapErr f m) Q := by
  intro hf r w' e hr
  cases hm : m w with
  | mk r0 w1 =>
    simp only [M.mapErr, hm, Prod.mk.injEq] at e
    obtain ⟨e1, e2⟩ := e
    subst w1
    obtain ⟨h1, h2, h3⟩ := h hf _ _ hm (settled_mapErr (e1 ▸ hr))
    refine ⟨h1, fun a ha => h2 a ?_, fun s2 hs2 hag => ?_⟩
    · cases r0 <;> simp [Res.mapErr] at e1 <;> subst e1 <;> cases ha <;> rfl
    · obtain ⟨s3, e3, h4⟩ := h3 s2 hs2 hag
      exact ⟨s3, by simp only [M.mapErr, e3, e1], h4⟩

theorem at_tryM [ErrFrom ε ε'] {m : M (World (traced R) N) ε α} {Q : α → ArrayString N → (Nat → Mark) → Prop}
    (h : At F w m Q) : At F w (M.tryM m : M (World (traced R) N) ε' α) Q := at_mapErr h

theorem at_try [ErrFrom ε ε'] {r : Res ε α} {Q : α → ArrayString N → (Nat → Mark) → Prop}
    (h : ∀ a, r = .ok a → Q a w.str (marks w)) : At F w (M.try_ r : M (World (traced R) N) ε' α) Q :=
  at_mapErr (at_lift h)

theorem at_attempt {m : M (World (traced R) N) ε α} {Q : α → ArrayString N → (Nat → Mark) → Prop}
    (h : At F w m Q) :
    At F w (M.attempt m : M (World (traced R) N) ε' (Except ε α)) (fun r s k => ∀ a, r = .ok a → Q a s k) := by
  intro hf r w' e hr
  cases hm : m w with
  | mk r0 w1 =>
    simp only [M.attempt, hm, Prod.mk.injEq] at e
    obtain ⟨e1, e2⟩ := e
    subst w1
    have hs : Settled r0 := by
      subst e1
      cases r0 <;> first | exact absurd rfl hr.1 | exact absurd rfl hr.2 | exact ⟨nofun, nofun⟩
    obtain ⟨h1, h2, h3⟩ := h hf _ _ hm hs
    refine ⟨h1, fun a ha b hb => h2 b ?_, fun s2 hs2 hag => ?_⟩
    · subst hb
      cases r0 <;> simp [Res.attempt] at e1 <;> subst e1 <;> cases ha <;> rfl
    · obtain ⟨s3, e3, h4⟩ := h3 s2 hs2 hag
      exact ⟨s3, by simp only [M.attempt, e3, e1], h4⟩

theorem at_congr {m m' : M (World (traced R) N) ε α} {Q : α → ArrayString N → (Nat → Mark) → Prop}
    (h : ∀ s, Full s → m { w with str := s } = m' { w with str := s }) (h' : At F w m' Q) : At F w m Q := by
  intro hf r w' e hr
  have e0 : m w = m' w := h w.str hf
  obtain ⟨h1, h2, h3⟩ := h' hf r w' (e0 ▸ e) hr
  refine ⟨h1, h2, fun s2 hs2 hag => ?_⟩
  obtain ⟨s3, e3, h4⟩ := h3 s2 hs2 hag
  exact ⟨s3, by rw [h s2 hs2, e3], h4⟩

/-- A run that is not settled promises nothing. -/
theorem at_ub {m : M (World (traced R) N) ε α} {Q : α → ArrayString N → (Nat → Mark) → Prop}
    (h : Full w.str → (m w).1 = .ub) : At F w m Q := by
  intro hf r w' e hr
  have := h hf
  rw [e] at this
  exact absurd this hr.1

/-! ### Accesses -/

theorem touch_eq {w : World R N} {lo hi : Nat} {f : R.St → Option R.St} {r : Res ε Unit} {w' : World R N}
    (e : touch lo hi f w = (r, w')) (hr : Settled r) :
    r = .ok () ∧ w'.str = w.str ∧ w'.next = w.next ∧
    (∀ l, lo ≤ l → l < hi → f (w.mem l) = some (w'.mem l)) ∧
    (∀ l, ¬ (lo ≤ l ∧ l < hi) → w'.mem l = w.mem l) ∧
    ∀ s : ArrayString N, touch (ε := ε) lo hi f { w with str := s } = (r, { w' with str := s }) := by
  unfold touch at e
  split at e
  · rename_i h
    cases e
    refine ⟨rfl, rfl, rfl, fun l h1 h2 => ?_, fun l hl => by simp [hl], fun s => ?_⟩
    · have := List.all_eq_true.1 h l (by simp [List.mem_range'_1]; omega)
      simp only [h1, h2, and_self, if_true]
      obtain ⟨x, hx⟩ := Option.isSome_iff_exists.1 this
      rw [hx]; rfl
    · unfold touch
      rw [if_pos h]
  · cases e
    exact absurd rfl hr.1

theorem at_touch {lo hi : Nat} {f : (traced R).St → Option (traced R).St} {Q : Unit → ArrayString N → (Nat → Mark) → Prop}
    {g : Mark → Mark} (hf : ∀ st st', f st = some st' → st'.2 = g st.2)
    (hg : ∀ k, (k.read = true → (g k).read = true) ∧ (g k).written = k.written)
    (hQ : ∀ k, (∀ l, k l = if lo ≤ l ∧ l < hi then g (marks w l) else marks w l) → Q () w.str k) :
    At F w (touch lo hi f : M (World (traced R) N) ε Unit) Q := by
  intro hfull r w' e hr
  obtain ⟨rfl, hs, hn, h1, h2, h3⟩ := touch_eq e hr
  have hk : ∀ l, marks w' l = if lo ≤ l ∧ l < hi then g (marks w l) else marks w l := by
    intro l
    split
    · rename_i h
      exact hf _ _ (h1 l h.1 h.2)
    · rename_i h
      simp only [marks, h2 l h]
  have hread : ∀ l, (marks w l).read = true → (marks w' l).read = true := by
    intro l h
    rw [hk]
    split
    · exact (hg _).1 h
    · exact h
  have hwr : ∀ l, (marks w' l).written = (marks w l).written := by
    intro l
    rw [hk]
    split
    · exact (hg _).2
    · rfl
  refine ⟨⟨by rw [hs]; exact hfull, hread, fun l h => by rw [hwr]; exact h, fun l _ h => absurd (by rw [hs]) h,
    fun _ l _ h => by rw [← hwr]; exact h⟩, fun a _ => by rw [hs]; exact hQ _ hk, fun s2 hs2 hag => ?_⟩
  refine ⟨s2, h3 s2, hs2, fun l hl x => ?_⟩
  rw [hs]
  exact x.elim (fun y => hag l hl (.inr (by rw [← hwr]; exact y))) id

theorem map_mark {o : Option R.St} {k : Mark} {st' : R.St × Mark} (h : o.map (·, k) = some st') : st'.2 = k := by
  cases o with
  | none => cases h
  | some x => cases h; rfl

theorem at_silent {lo hi : Nat} {f : (traced R).St → Option (traced R).St} {Q : Unit → ArrayString N → (Nat → Mark) → Prop}
    (hf : ∀ st st', f st = some st' → st'.2 = st.2) (hQ : Q () w.str (marks w)) :
    At F w (touch lo hi f : M (World (traced R) N) ε Unit) Q := by
  refine at_touch (g := id) hf (fun _ => ⟨id, rfl⟩) fun k hk => ?_
  have : k = marks w := by
    funext l
    rw [hk]
    simp
  rw [this]
  exact hQ

theorem at_fresh {Q : Tag → ArrayString N → (Nat → Mark) → Prop} (h : ∀ t, Q t w.str (marks w)) :
    At F w (fresh : M (World (traced R) N) ε Tag) Q := by
  intro hf r w' e hr
  cases e
  exact ⟨⟨hf, fun _ h => h, fun _ h => h, fun _ _ h => absurd rfl h, fun _ _ _ h => h⟩,
    fun a _ => h a,
    fun s2 hs2 hag => ⟨s2, rfl, hs2, fun l hl x => x.elim (fun y => hag l hl (.inr y)) id⟩⟩

theorem at_tagged {lo hi : Nat} {f : Tag → (traced R).St → Option (traced R).St} {Q : Tag → ArrayString N → (Nat → Mark) → Prop}
    (hf : ∀ u st st', f u st = some st' → st'.2 = st.2) (hQ : ∀ t, Q t w.str (marks w)) :
    At F w (do let u ← fresh; touch lo hi (f u); pure u : M (World (traced R) N) ε Tag) Q := by
  refine at_bind (Q := fun _ s k => s = w.str ∧ k = marks w) (at_fresh fun _ => ⟨rfl, rfl⟩) ?_
  intro u w1 _ ⟨h1, h2⟩
  refine at_bind (Q := fun _ s k => s = w.str ∧ k = marks w) (at_silent (hf u) ⟨h1, h2⟩) ?_
  intro _ w2 _ ⟨h1, h2⟩
  exact at_pure fun _ => by rw [h1, h2]; exact hQ u

theorem at_retagShared {t : Tag} {lo hi : Nat} {p : Bool} {Q : Tag → ArrayString N → (Nat → Mark) → Prop}
    (hQ : ∀ t, Q t w.str (marks w)) : At F w (retagShared t lo hi p : M (World (traced R) N) ε Tag) Q :=
  at_tagged (f := fun u => (traced R).shared t u p) (fun _ _ _ h => map_mark h) hQ

theorem at_retagUnique {t : Tag} {lo hi : Nat} {p : Bool} {Q : Tag → ArrayString N → (Nat → Mark) → Prop}
    (hQ : ∀ t, Q t w.str (marks w)) : At F w (retagUnique t lo hi p : M (World (traced R) N) ε Tag) Q :=
  at_tagged (f := fun u => (traced R).unique t u p) (fun _ _ _ h => map_mark h) hQ

theorem at_retagTwoPhase {t : Tag} {Q : Tag → ArrayString N → (Nat → Mark) → Prop}
    (hQ : ∀ t, Q t w.str (marks w)) : At F w (retagTwoPhase t : M (World (traced R) N) ε Tag) Q :=
  at_tagged (f := fun u => (traced R).twoPhase t u) (fun _ _ _ h => map_mark h) hQ

theorem at_release {t : Tag} {lo hi : Nat} {Q : Unit → ArrayString N → (Nat → Mark) → Prop}
    (hQ : Q () w.str (marks w)) : At F w (release t lo hi : M (World (traced R) N) ε Unit) Q :=
  at_silent (fun _ _ h => map_mark h) hQ

theorem at_readAt {t : Tag} {lo hi : Nat} {Q : Unit → ArrayString N → (Nat → Mark) → Prop}
    (hQ : ∀ k, (∀ l, (marks w l).read = true → (k l).read = true) →
      (∀ l, lo ≤ l → l < hi → (k l).read = true) → Q () w.str k) :
    At F w (readAt t lo hi : M (World (traced R) N) ε Unit) Q := by
  refine at_touch (g := fun k => { k with read := true }) (fun _ _ h => map_mark h) (fun _ => ⟨fun _ => rfl, rfl⟩)
    fun k hk => hQ k (fun l h => ?_) (fun l h1 h2 => ?_)
  · rw [hk]
    split
    · rfl
    · exact h
  · rw [hk, if_pos ⟨h1, h2⟩]

theorem at_protecting {t : Tag} {lo hi : Nat} {m : M (World (traced R) N) ε α}
    {Q : α → ArrayString N → (Nat → Mark) → Prop} (h : At F w m Q) : At F w (protecting t lo hi m) Q := by
  intro hf r w' e hr
  cases hm : m w with
  | mk r0 w1 =>
    have key : ∀ (r0 : Res ε α), m w = (r0, w1) → Settled r0 →
        (∀ v v1, m v = (r0, v1) → protecting t lo hi m v =
          (match (release t lo hi : M (World (traced R) N) Empty Unit) v1 with
            | (.ok (), v) => (r0, v)
            | (_, v) => (.ub, v))) →
        Cover F w w' ∧ (∀ a, r = .ok a → Q a w'.str (marks w')) ∧
        ∀ s2 : ArrayString N, Full s2 →
          (∀ l ≤ N, ((marks w' l).read = true ∨ (marks w l).written = true) → byteAt s2 l = byteAt w.str l) →
          ∃ s2', protecting t lo hi m { w with str := s2 } = (r, { w' with str := s2' }) ∧ Full s2' ∧
            ∀ l ≤ N, ((marks w' l).written = true ∨ byteAt s2 l = byteAt w.str l) →
              byteAt s2' l = byteAt w'.str l := by
      intro r0 hm hs hp
      obtain ⟨h1, h2, h3⟩ := h hf _ _ hm hs
      rw [hp _ _ hm] at e
      cases hrel : (release t lo hi : M (World (traced R) N) Empty Unit) w1 with
      | mk rr w2 =>
        rw [hrel] at e
        have hrr : Settled rr := by
          cases rr with
          | ok _ => exact ⟨nofun, nofun⟩
          | err x => cases x
          | panic => exact ⟨nofun, nofun⟩
          | ub => cases e; exact absurd rfl hr.1
          | diverge => cases e; exact absurd rfl hr.1
        obtain ⟨rfl, hstr, -, -, -, hrun⟩ := touch_eq hrel hrr
        obtain ⟨g1, g2, g3⟩ := at_release (F := F) (ε := Empty) (t := t) (lo := lo) (hi := hi) (w := w1)
          (Q := fun _ s k => k = marks w1) rfl h1.full _ _ hrel ⟨nofun, nofun⟩
        have hk := g2 () rfl
        dsimp only at e
        cases e
        refine ⟨h1.trans g1, fun a ha => by rw [hk, hstr]; exact h2 a ha, fun s2 hs2 hag => ?_⟩
        rw [hk] at hag
        obtain ⟨s3, e3, f3, a3⟩ := h3 s2 hs2 hag
        refine ⟨s3, ?_, f3, by rw [hk, hstr]; exact a3⟩
        have := hrun s3
        rw [hp _ _ e3, show (release t lo hi : M (World (traced R) N) Empty Unit) { w1 with str := s3 } =
          (.ok (), { w' with str := s3 }) from this]
    cases r0 with
    | ok a =>
      exact key _ hm ⟨nofun, nofun⟩ fun v v1 hv => by
        rw [protecting, hv]
        dsimp only
        generalize (release t lo hi : M (World (traced R) N) Empty Unit) v1 = x
        rcases x with ⟨_ | _ | _ | _ | _, _⟩ <;> rfl
    | err a =>
      exact key _ hm ⟨nofun, nofun⟩ fun v v1 hv => by
        rw [protecting, hv]
        dsimp only
        generalize (release t lo hi : M (World (traced R) N) Empty Unit) v1 = x
        rcases x with ⟨_ | _ | _ | _ | _, _⟩ <;> rfl
    | panic =>
      exact key _ hm ⟨nofun, nofun⟩ fun v v1 hv => by
        rw [protecting, hv]
        dsimp only
        generalize (release t lo hi : M (World (traced R) N) Empty Unit) v1 = x
        rcases x with ⟨_ | _ | _ | _ | _, _⟩ <;> rfl
    | ub => rw [protecting, hm] at e; cases e; exact absurd rfl hr.1
    | diverge => rw [protecting, hm] at e; cases e; exact absurd rfl hr.2

/-! ### Calls -/

theorem at_passShared {t : Tag} {lo hi : Nat} {body : Tag → M (World (traced R) N) ε α}
    {Q : α → ArrayString N → (Nat → Mark) → Prop}
    (h : ∀ u w1, w1.str = w.str → marks w1 = marks w → At F w1 (body u) Q) :
    At F w (passShared t lo hi body) Q := by
  refine at_bind (Q := fun _ s k => s = w.str ∧ k = marks w) (at_retagShared fun _ => ⟨rfl, rfl⟩) ?_
  intro u w1 _ ⟨h1, h2⟩
  exact at_protecting (h u w1 h1 h2)

theorem at_passUnique {t : Tag} {lo hi : Nat} {body : Tag → M (World (traced R) N) ε α}
    {Q : α → ArrayString N → (Nat → Mark) → Prop}
    (h : ∀ u w1, w1.str = w.str → marks w1 = marks w → At F w1 (body u) Q) :
    At F w (passUnique t lo hi body) Q := by
  refine at_bind (Q := fun _ s k => s = w.str ∧ k = marks w) (at_retagUnique fun _ => ⟨rfl, rfl⟩) ?_
  intro u w1 _ ⟨h1, h2⟩
  exact at_protecting (h u w1 h1 h2)

theorem at_through {t : Tag} {lo hi lo' hi' : Nat} {Q : Tag → ArrayString N → (Nat → Mark) → Prop}
    (hQ : ∀ t, Q t w.str (marks w)) : At F w (through t lo hi lo' hi' : M (World (traced R) N) ε Tag) Q := by
  refine at_bind (Q := fun _ s k => s = w.str ∧ k = marks w)
    (at_passShared fun u w1 h1 h2 => at_retagShared fun _ => ⟨h1, h2⟩) ?_
  intro v w1 _ ⟨h1, h2⟩
  exact at_retagShared fun t => by rw [h1, h2]; exact hQ t

theorem at_throughMut {t : Tag} {lo hi lo' hi' : Nat} {Q : Tag → ArrayString N → (Nat → Mark) → Prop}
    (hQ : ∀ t, Q t w.str (marks w)) : At F w (throughMut t lo hi lo' hi' : M (World (traced R) N) ε Tag) Q := by
  refine at_bind (Q := fun _ s k => s = w.str ∧ k = marks w) (at_retagUnique fun _ => ⟨rfl, rfl⟩) ?_
  intro u w1 _ h1
  refine at_bind (Q := fun _ s k => s = w.str ∧ k = marks w) (at_retagUnique fun _ => h1) ?_
  intro v w1 _ h1
  refine at_bind (Q := fun _ s k => s = w.str ∧ k = marks w) (at_release h1) ?_
  intro _ w1 _ h1
  exact at_retagUnique fun t => by rw [h1.1, h1.2]; exact hQ t

theorem at_rawMut {t p : Tag} {lo hi : Nat} {Q : Unit → ArrayString N → (Nat → Mark) → Prop}
    (hQ : Q () w.str (marks w)) : At F w (touch lo hi ((traced R).rawMut t p) : M (World (traced R) N) ε Unit) Q :=
  at_silent (fun _ _ h => map_mark h) hQ

theorem at_throughRaw {t : Tag} {lo hi lo' hi' : Nat} {Q : Tag → ArrayString N → (Nat → Mark) → Prop}
    (hQ : ∀ t, Q t w.str (marks w)) : At F w (throughRaw t lo hi lo' hi' : M (World (traced R) N) ε Tag) Q := by
  refine at_bind (Q := fun _ s k => s = w.str ∧ k = marks w) (at_retagUnique fun _ => ⟨rfl, rfl⟩) ?_
  intro u w1 _ h1
  refine at_bind (Q := fun _ s k => s = w.str ∧ k = marks w) (at_fresh fun _ => h1) ?_
  intro p w1 _ h1
  refine at_bind (Q := fun _ s k => s = w.str ∧ k = marks w) (at_rawMut h1) ?_
  intro _ w1 _ h1
  refine at_bind (Q := fun _ s k => s = w.str ∧ k = marks w) (at_retagUnique fun _ => h1) ?_
  intro v w1 _ h1
  refine at_bind (Q := fun _ s k => s = w.str ∧ k = marks w) (at_release h1) ?_
  intro _ w1 _ h1
  exact at_retagUnique fun t => by rw [h1.1, h1.2]; exact hQ t

theorem at_callShared {self : Tag} {body : Tag → M (World (traced R) N) ε α}
    {Q : α → ArrayString N → (Nat → Mark) → Prop}
    (h : ∀ u w1, w1.str = w.str → marks w1 = marks w → At F w1 (body u) Q) :
    At F w (callShared self body) Q := by
  refine at_bind (Q := fun _ s k => s = w.str ∧ k = marks w) (at_retagShared fun _ => ⟨rfl, rfl⟩) ?_
  intro u w1 _ ⟨h1, h2⟩
  exact at_passShared fun v w2 h3 h4 => h v w2 (h3.trans h1) (h4.trans h2)

theorem at_callMut {self : Tag} {body : Tag → M (World (traced R) N) ε α}
    {Q : α → ArrayString N → (Nat → Mark) → Prop}
    (h : ∀ u w1, w1.str = w.str → marks w1 = marks w → At F w1 (body u) Q) :
    At F w (callMut self body) Q := by
  refine at_bind (Q := fun _ s k => s = w.str ∧ k = marks w) (at_retagTwoPhase fun _ => ⟨rfl, rfl⟩) ?_
  intro u w1 _ ⟨h1, h2⟩
  exact at_passUnique fun v w2 h3 h4 => h v w2 (h3.trans h1) (h4.trans h2)

theorem at_callRef {self : Tag} {body : Tag → M (World (traced R) N) ε (Tag × Nat)}
    {Q : Nat → ArrayString N → (Nat → Mark) → Prop}
    (h : ∀ u w1, w1.str = w.str → marks w1 = marks w → At F w1 (body u) fun a => Q a.2) :
    At F w (callRef self body) fun a => Q a.2 := by
  refine at_bind (at_callShared h) ?_
  intro ⟨a, n⟩ w1 _ h1
  refine at_bind (Q := fun _ s k => s = w1.str ∧ k = marks w1) (at_retagShared fun _ => ⟨rfl, rfl⟩) ?_
  intro t w2 _ ⟨h2, h3⟩
  exact at_pure fun _ => by rw [h2, h3]; exact h1

theorem at_passRef {t : Tag} {body : Tag → M (World (traced R) N) ε (Tag × Nat)}
    {Q : Nat → ArrayString N → (Nat → Mark) → Prop}
    (h : ∀ u w1, w1.str = w.str → marks w1 = marks w → At F w1 (body u) fun a => Q a.2) :
    At F w (passRef t body) fun a => Q a.2 := by
  refine at_bind (at_passUnique h) ?_
  intro ⟨a, n⟩ w1 _ h1
  refine at_bind (Q := fun _ s k => s = w1.str ∧ k = marks w1) (at_retagUnique fun _ => ⟨rfl, rfl⟩) ?_
  intro t w2 _ ⟨h2, h3⟩
  exact at_pure fun _ => by rw [h2, h3]; exact h1

/-! ### The string -/

theorem at_get {f : ArrayString N → M (World (traced R) N) ε α} {Q : α → ArrayString N → (Nat → Mark) → Prop}
    (hc : Full w.str → ∀ s2 : ArrayString N, Full s2 →
      (∀ l ≤ N, (marks w l).read = true → byteAt s2 l = byteAt w.str l) → f s2 = f w.str)
    (h : At F w (f w.str) Q) : At F w (get >>= f) Q := by
  intro hf r w' e hr
  obtain ⟨h1, h2, h3⟩ := h hf r w' e hr
  refine ⟨h1, h2, fun s2 hs2 hag => ?_⟩
  obtain ⟨s3, e3, h4⟩ := h3 s2 hs2 hag
  refine ⟨s3, ?_, h4⟩
  show f s2 _ = _
  rw [hc hf s2 hs2 fun l hl x => hag l hl (.inl (h1.read l x))]
  exact e3

theorem at_store {t : Tag} {lo hi : Nat} {p : M (ArrayString N) ε α} {Q : α → ArrayString N → (Nat → Mark) → Prop}
    (hF : F → hi ≤ N + 1)
    (h : Full w.str → ∀ s2 : ArrayString N, Full s2 →
      (∀ l ≤ N, (marks w l).read = true → byteAt s2 l = byteAt w.str l) →
      (p s2).1 = (p w.str).1 ∧ Full (p s2).2 ∧
      (∀ l ≤ N, lo ≤ l → l < hi → byteAt (p s2).2 l = byteAt (p w.str).2 l) ∧
      ∀ l ≤ N, ¬ (lo ≤ l ∧ l < hi) → byteAt (p s2).2 l = byteAt s2 l)
    (hQ : ∀ a k, (p w.str).1 = .ok a → (∀ l, (k l).read = (marks w l).read) → Q a (p w.str).2 k) :
    At F w (writeAt t lo hi >>= fun _ => (plain p : M (World (traced R) N) ε α)) Q := by
  intro hfull r w' e hr
  have e' : M.bind (writeAt t lo hi) (fun _ => (plain p : M (World (traced R) N) ε α)) w = (r, w') := e
  rw [M.bind] at e'
  cases ht : (writeAt t lo hi : M (World (traced R) N) ε Unit) w with
  | mk r0 w1 =>
    rw [ht] at e'
    have hr0 : Settled r0 := by
      cases r0 with
      | ok _ => exact ⟨nofun, nofun⟩
      | err x => exact ⟨nofun, nofun⟩
      | panic => exact ⟨nofun, nofun⟩
      | ub => cases e'; exact absurd rfl hr.1
      | diverge => cases e'; exact absurd rfl hr.2
    obtain ⟨rfl, hs, hn, h1, h2, h3⟩ := touch_eq ht hr0
    have hk : ∀ l, marks w1 l = if lo ≤ l ∧ l < hi then { marks w l with written := true } else marks w l := by
      intro l
      split
      · rename_i h
        exact map_mark (h1 l h.1 h.2)
      · rename_i h
        simp only [marks, h2 l h]
    have hread : ∀ l, (marks w1 l).read = (marks w l).read := by
      intro l
      rw [hk]
      split <;> rfl
    have hwr : ∀ l, (marks w1 l).written = true ↔ (lo ≤ l ∧ l < hi) ∨ (marks w l).written = true := by
      intro l
      rw [hk]
      split
      · rename_i h; simp [h]
      · rename_i h; simp [h]
    simp only [plain, hs] at e'
    obtain ⟨rfl, hw'⟩ := Prod.mk.inj e'
    have hm : marks w' = marks w1 := by rw [← hw']; rfl
    have hstr : w'.str = (p w.str).2 := by rw [← hw']
    obtain ⟨-, a2, -, a4⟩ := h hfull w.str hfull fun _ _ _ => rfl
    refine ⟨⟨by rw [hstr]; exact a2, fun l x => by rw [hm, hread]; exact x, fun l x => ?_, fun l hl x => ?_, ?_⟩,
      fun a ha => by rw [hstr, hm]; exact hQ a _ ha hread, fun s2 hs2 hag => ?_⟩
    · rw [hm, hwr]; exact .inr x
    · rw [hm, hwr]
      refine .inl (Classical.byContradiction fun hno => x ?_)
      rw [hstr]
      exact a4 l hl hno
    · intro f l hl x
      rw [hm, hwr] at x
      have := hF f
      exact x.elim (fun y => by omega) id
    · rw [hm] at hag ⊢
      have hag' : ∀ l ≤ N, (marks w l).read = true → byteAt s2 l = byteAt w.str l :=
        fun l hl x => hag l hl (.inl (by rw [hread]; exact x))
      obtain ⟨b1, b2, b3, b4⟩ := h hfull s2 hs2 hag'
      refine ⟨(p s2).2, ?_, b2, fun l hl x => ?_⟩
      · show M.bind (writeAt t lo hi) (fun _ => (plain p : M (World (traced R) N) ε α)) _ = _
        rw [M.bind, show (writeAt t lo hi : M (World (traced R) N) ε Unit) { w with str := s2 } =
          (.ok (), { w1 with str := s2 }) from h3 s2]
        simp only [plain, b1, ← hw']
      · rw [hstr]
        by_cases hin : lo ≤ l ∧ l < hi
        · exact b3 l hl hin.1 hin.2
        · rw [b4 l hl hin, a4 l hl hin]
          rw [hwr] at x
          exact x.elim (fun y => y.elim (fun z => absurd z hin) fun z => hag l hl (.inr z)) id

/-! ### Local variables -/

theorem withBuf_eq {w : World R N} {size : Nat} {body : Tag → M (World R N) ε α} {r : Res ε α} {v : World R N}
    (h : body w.next {
      str := w.str
      mem := fun l => if l ≤ N then w.mem l else if l < N + 1 + size then R.alloc w.next else R.empty
      next := w.next + 1 } = (r, v)) :
    withBuf size body w = (r, {
      str := v.str
      mem := fun l => if l ≤ N then v.mem l else w.mem l
      next := max w.next v.next }) := by
  simp only [withBuf, h]

theorem withLocal_eq {w : World R N} {init : ArrayString N} {lo hi : Nat} {body : Tag → M (World R N) ε α}
    {r : Res ε α} {v : World R N}
    (h : body w.next {
      str := init
      mem := fun l => if l ≤ N then R.alloc w.next
        else if l < N + 1 + (hi - lo) then w.mem (lo + (l - (N + 1))) else R.empty
      next := w.next + 1 } = (r, v)) :
    withLocal init lo hi body w = (r >>= fun a => .ok (a, v.str), {
      str := w.str
      mem := fun l => if lo ≤ l ∧ l < hi then v.mem (N + 1 + (l - lo)) else w.mem l
      next := max w.next v.next }) := by
  simp only [withLocal, h]

theorem at_withBuf {size : Nat} {body : Tag → M (World (traced R) N) ε α}
    (h : ∀ v, v.str = w.str → At False v (body w.next) fun _ _ _ => True) :
    At F w (withBuf size body) fun _ _ _ => True := by
  intro hf r w' e hr
  let v : World (traced R) N := {
    str := w.str
    mem := fun l => if l ≤ N then w.mem l else if l < N + 1 + size then (traced R).alloc w.next else (traced R).empty
    next := w.next + 1 }
  cases hb : body w.next v with
  | mk r0 v' =>
    have e' : withBuf size body w = (r0, { str := v'.str
                                           mem := fun l => if l ≤ N then v'.mem l else w.mem l
                                           next := max w.next v'.next }) := by
      exact withBuf_eq hb
    rw [e'] at e
    cases e
    obtain ⟨h1, -, h3⟩ := h v rfl hf _ _ hb hr
    have hv : ∀ l ≤ N, marks v l = marks w l := fun l hl => by simp [v, marks, hl]
    have hv' : ∀ l ≤ N, (v'.mem l).2 = marks v' l := fun l hl => rfl
    refine ⟨⟨h1.full, fun l x => ?_, fun l x => ?_, fun l hl x => ?_, fun _ l hl x => ?_⟩, fun _ _ => trivial,
      fun s2 hs2 hag => ?_⟩
    · by_cases hl : l ≤ N
      · have := h1.read l (by rw [hv l hl]; exact x)
        simpa [marks, hl] using this
      · simpa [marks, hl] using x
    · by_cases hl : l ≤ N
      · have := h1.written l (by rw [hv l hl]; exact x)
        simpa [marks, hl] using this
      · simpa [marks, hl] using x
    · have := h1.changed l hl x
      simpa [marks, hl] using this
    · have : ¬ l ≤ N := by omega
      simpa [marks, this] using x
    · obtain ⟨s3, e3, f3, a3⟩ := h3 s2 hs2 fun l hl x => hag l hl (by
        rw [hv l hl] at x
        simpa [marks, hl] using x)
      refine ⟨s3, ?_, f3, fun l hl x => a3 l hl (by simpa [marks, hl] using x)⟩
      exact withBuf_eq (w := { w with str := s2 }) e3

theorem at_withLocal {init : ArrayString N} {lo hi : Nat} {body : Tag → M (World (traced R) N) ε α}
    (hi' : Full init) (h : ∀ v, v.str = init → At True v (body w.next) fun _ _ _ => True) :
    At F w (withLocal init lo hi body) fun r s k => s = w.str ∧ Full r.2 ∧
      ∀ l, (marks w l).read = true → (k l).read = true := by
  intro hf r w' e hr
  let v : World (traced R) N := {
    str := init
    mem := fun l => if l ≤ N then (traced R).alloc w.next
      else if l < N + 1 + (hi - lo) then w.mem (lo + (l - (N + 1))) else (traced R).empty
    next := w.next + 1 }
  cases hb : body w.next v with
  | mk r0 v' =>
    have e' : ∀ s, withLocal init lo hi body { w with str := s } = (r0 >>= fun a => .ok (a, v'.str),
        { str := s
          mem := fun l => if lo ≤ l ∧ l < hi then v'.mem (N + 1 + (l - lo)) else w.mem l
          next := max w.next v'.next }) := by
      intro s
      exact withLocal_eq (w := { w with str := s }) hb
    rw [show w = { w with str := w.str } from rfl, e'] at e
    cases e
    have hr0 : Settled r0 := by
      cases r0 <;> first | exact absurd rfl hr.1 | exact absurd rfl hr.2 | exact ⟨nofun, nofun⟩
    obtain ⟨h1, -, -⟩ := h v rfl hi' _ _ hb hr0
    have hv : ∀ l, lo ≤ l → l < hi → marks v (N + 1 + (l - lo)) = marks w l := by
      intro l h1 h2
      have a1 : ¬ N + 1 + (l - lo) ≤ N := by omega
      have a2 : N + 1 + (l - lo) < N + 1 + (hi - lo) := by omega
      have a3 : lo + (N + 1 + (l - lo) - (N + 1)) = l := by omega
      simp only [v, marks, if_neg a1, if_pos a2, a3]
    have hread : ∀ l, (marks w l).read = true →
        ((if lo ≤ l ∧ l < hi then v'.mem (N + 1 + (l - lo)) else w.mem l).2).read = true := by
      intro l x
      split
      · rename_i hl
        exact h1.read _ (by rw [hv l hl.1 hl.2]; exact x)
      · exact x
    have hwr : ∀ l, ((if lo ≤ l ∧ l < hi then v'.mem (N + 1 + (l - lo)) else w.mem l).2).written = true →
        (marks w l).written = true := by
      intro l x
      split at x
      · rename_i hl
        rw [← hv l hl.1 hl.2]
        exact h1.text trivial _ (by omega) x
      · exact x
    refine ⟨⟨hf, hread, fun l x => ?_, fun l hl x => absurd rfl x, fun _ l _ x => hwr l x⟩,
      fun a ha => ⟨rfl, ?_, hread⟩, fun s2 hs2 hag => ⟨s2, e' s2, hs2, fun l hl x => ?_⟩⟩
    · show ((if lo ≤ l ∧ l < hi then v'.mem (N + 1 + (l - lo)) else w.mem l).2).written = true
      split
      · rename_i hl
        exact h1.written _ (by rw [hv l hl.1 hl.2]; exact x)
      · exact x
    · cases r0 <;> cases ha
      exact h1.full
    · exact x.elim (fun y => hag l hl (.inr (hwr l y))) id

/-! ### What is known after a read -/

/-- The text has been read. -/
def Seen (s : ArrayString N) (k : Nat → Mark) : Prop :=
  (k N).read = true ∧ ∀ l, l < s.len → (k l).read = true

theorem Seen.mono {w1 : World (traced R) N} {s : ArrayString N} (h : Seen s (marks w)) (c : Cover F w w1) :
    Seen s (marks w1) := ⟨c.read _ h.1, fun l hl => c.read _ (h.2 l hl)⟩

theorem byteAt_size {s s2 : ArrayString N} (h : byteAt s2 N = byteAt s N) : s2.size = s.size := by
  simpa [byteAt] using h

theorem byteAt_take {s s2 : ArrayString N} {n : Nat} (f : Full s) (f2 : Full s2)
    (h : ∀ l ≤ N, l < n → byteAt s2 l = byteAt s l) : s2.array.take n = s.array.take n := by
  refine List.ext_getElem? fun l => ?_
  rw [List.getElem?_take, List.getElem?_take]
  split
  · rename_i hl
    by_cases hN : l < N
    · have := h l (by omega) hl
      simpa [byteAt, hN] using this
    · rw [List.getElem?_eq_none (by rw [f2]; omega), List.getElem?_eq_none (by rw [f]; omega)]
  · rfl

theorem Seen.agree {s s2 : ArrayString N} {k : Nat → Mark} (h : Seen s k) (f : Full s) (f2 : Full s2)
    (ha : ∀ l ≤ N, (k l).read = true → byteAt s2 l = byteAt s l) :
    s2.size = s.size ∧ s2.array.take s.len = s.array.take s.len :=
  ⟨byteAt_size (ha N (Nat.le_refl _) h.1), byteAt_take f f2 fun l hl hn => ha l hl (h.2 l hn)⟩

theorem asRefBytes_agree {s s2 : ArrayString N} (f : Full s) (f2 : Full s2) (h : s2.size = s.size)
    (ht : s2.array.take s.len = s.array.take s.len) : (s2.asRefBytes : Res ε Bytes) = s.asRefBytes := by
  have hl : s2.len = s.len := by simp [ArrayString.len, h]
  have e : s2.array.length = s.array.length := by rw [f, f2]
  simp only [ArrayString.asRefBytes, getUncheckedTo, hl, ht, e]

theorem asStr_agree {s s2 : ArrayString N} (f : Full s) (f2 : Full s2) (h : s2.size = s.size)
    (ht : s2.array.take s.len = s.array.take s.len) : (s2.asStr : Res ε Bytes) = s.asStr := by
  simp only [ArrayString.asStr, ArrayString.asRefStr, asRefBytes_agree f f2 h ht]

theorem Seen.asStr {s s2 : ArrayString N} {k : Nat → Mark} (h : Seen s k) (f : Full s) (f2 : Full s2)
    (ha : ∀ l ≤ N, (k l).read = true → byteAt s2 l = byteAt s l) : (s2.asStr : Res ε Bytes) = s.asStr :=
  asStr_agree f f2 (h.agree f f2 ha).1 (h.agree f f2 ha).2

theorem at_text {K : Bytes → M (World (traced R) N) ε α} {Q : α → ArrayString N → (Nat → Mark) → Prop}
    (hs : Seen w.str (marks w)) (h : ∀ b, (w.str.asStr : Res ε Bytes) = .ok b → At F w (K b) Q) :
    At F w (do let s ← get; let b ← M.lift s.asStr; K b) Q := by
  refine at_get (fun f s2 f2 ha => by rw [hs.asStr f f2 ha]) ?_
  exact at_liftBind h

end at_

end Verif.Borrow
