import Verif.Proofs.FootprintOps
import Verif.Proofs.Fit

/-! Bytes of the text argument that a run does not read do not matter (`Like`). -/

namespace Verif.Borrow
open Spec

section like
variable {R : Rules} {N : Nat} {ε ε' α β : Type}

/-! ### Reads are not forgotten -/

/-- A byte that was read stays marked as read. -/
def Mono (m : M (World (traced R) N) ε α) : Prop :=
  ∀ w r w', m w = (r, w') → Settled r → ∀ l, (marks w l).read = true → (marks w' l).read = true

syntax "mono" : tactic

theorem mono_pure {a : α} : Mono (pure a : M (World (traced R) N) ε α) := by
  intro w r w' e _ l h
  cases e
  exact h
macro_rules | `(tactic| mono) => `(tactic| with_reducible exact mono_pure)

theorem mono_lift {r : Res ε α} : Mono (M.lift r : M (World (traced R) N) ε α) := by
  intro w r w' e _ l h
  cases e
  exact h
macro_rules | `(tactic| mono) => `(tactic| with_reducible exact mono_lift)

theorem mono_try [ErrFrom ε ε'] {r : Res ε α} : Mono (M.try_ r : M (World (traced R) N) ε' α) := by
  intro w r w' e _ l h
  cases e
  exact h
macro_rules | `(tactic| mono) => `(tactic| with_reducible exact mono_try)

theorem mono_get : Mono (get : M (World (traced R) N) ε _) := by
  intro w r w' e _ l h
  cases e
  exact h
macro_rules | `(tactic| mono) => `(tactic| with_reducible exact mono_get)

theorem mono_put {s : ArrayString N} : Mono (put s : M (World (traced R) N) ε _) := by
  intro w r w' e _ l h
  cases e
  exact h
macro_rules | `(tactic| mono) => `(tactic| with_reducible exact mono_put)

theorem mono_fresh : Mono (fresh : M (World (traced R) N) ε _) := by
  intro w r w' e _ l h
  cases e
  exact h
macro_rules | `(tactic| mono) => `(tactic| with_reducible exact mono_fresh)

theorem settled_of_bind {m : M (World R N) ε α} {f : α → M (World R N) ε β} {w w' : World R N} {r : Res ε β}
    (e : (m >>= f) w = (r, w')) (hr : Settled r) : Settled (m w).1 := by
  change M.bind m f w = _ at e
  unfold M.bind at e
  split at e
  next h => rw [h]; exact settled_ok
  next h => rw [h]; exact settled_err
  next h => rw [h]; exact settled_panic
  next h => cases e; exact absurd rfl hr.1
  next h => cases e; exact absurd rfl hr.2

theorem mono_bind {m : M (World (traced R) N) ε α} {f : α → M (World (traced R) N) ε β}
    (h : Mono m) (hf : ∀ a, Mono (f a)) : Mono (m >>= f) := by
  intro w r w' e hr l hl
  have hs := settled_of_bind e hr
  change M.bind m f w = _ at e
  unfold M.bind at e
  split at e
  next a w1 h1 => exact hf a _ _ _ e hr l (h _ _ _ h1 settled_ok l hl)
  next h1 => cases e; exact h _ _ _ h1 settled_err l hl
  next h1 => cases e; exact h _ _ _ h1 settled_panic l hl
  next h1 => cases e; exact absurd rfl hr.1
  next h1 => cases e; exact absurd rfl hr.2
macro_rules | `(tactic| mono) => `(tactic| (with_reducible refine mono_bind ?_ fun _ => ?_) <;> mono)

theorem mono_ite {c : Prop} [Decidable c] {m m' : M (World (traced R) N) ε α} (h : Mono m) (h' : Mono m') :
    Mono (if c then m else m') := by
  split <;> assumption
macro_rules | `(tactic| mono) => `(tactic| (with_reducible refine mono_ite ?_ ?_) <;> mono)

theorem settled_attempt {r : Res ε α} (h : Settled (r.attempt : Res ε' _)) : Settled r := by
  cases r with
  | ok => exact settled_ok
  | err => exact settled_err
  | panic => exact settled_panic
  | ub => exact absurd rfl h.1
  | diverge => exact absurd rfl h.2

theorem mono_mapErr {f : ε → ε'} {m : M (World (traced R) N) ε α} (h : Mono m) : Mono (M.mapErr f m) := by
  intro w r w' e hr
  cases e
  exact h w _ _ rfl (settled_mapErr hr)
macro_rules | `(tactic| mono) => `(tactic| (with_reducible refine mono_mapErr ?_) <;> mono)

theorem mono_tryM [ErrFrom ε ε'] {m : M (World (traced R) N) ε α} (h : Mono m) :
    Mono (M.tryM m : M (World (traced R) N) ε' α) := by
  intro w r w' e hr
  cases e
  exact h w _ _ rfl (settled_mapErr hr)
macro_rules | `(tactic| mono) => `(tactic| (with_reducible refine mono_tryM ?_) <;> mono)

theorem mono_attempt {m : M (World (traced R) N) ε α} (h : Mono m) :
    Mono (M.attempt m : M (World (traced R) N) ε' _) := by
  intro w r w' e hr
  cases e
  exact h w _ _ rfl (settled_attempt hr)
macro_rules | `(tactic| mono) => `(tactic| (with_reducible refine mono_attempt ?_) <;> mono)

theorem mono_touch {lo hi : Nat} {f : (traced R).St → Option (traced R).St}
    (hf : ∀ st st', f st = some st' → st.2.read = true → st'.2.read = true) :
    Mono (touch lo hi f : M (World (traced R) N) ε Unit) := by
  intro w r w' e hr l hl
  obtain ⟨-, -, -, h1, h2, -⟩ := touch_eq e hr
  by_cases h : lo ≤ l ∧ l < hi
  · exact hf _ _ (h1 l h.1 h.2) hl
  · simp only [marks, h2 l h]; exact hl

theorem mono_silent {lo hi : Nat} {f : (traced R).St → Option (traced R).St}
    (hf : ∀ st st', f st = some st' → st'.2 = st.2) : Mono (touch lo hi f : M (World (traced R) N) ε Unit) :=
  mono_touch fun _ _ h h' => by rw [hf _ _ h]; exact h'

theorem mono_readAt {t : Tag} {lo hi : Nat} : Mono (readAt t lo hi : M (World (traced R) N) ε _) := by
  refine mono_touch fun st st' h _ => ?_
  rw [map_mark h]
macro_rules | `(tactic| mono) => `(tactic| with_reducible exact mono_readAt)

theorem mono_writeAt {t : Tag} {lo hi : Nat} : Mono (writeAt t lo hi : M (World (traced R) N) ε _) := by
  refine mono_touch fun st st' h h' => ?_
  rw [map_mark h]
  exact h'
macro_rules | `(tactic| mono) => `(tactic| with_reducible exact mono_writeAt)

theorem mono_release {t : Tag} {lo hi : Nat} : Mono (release t lo hi : M (World (traced R) N) ε _) :=
  mono_silent fun _ _ h => map_mark h
macro_rules | `(tactic| mono) => `(tactic| with_reducible exact mono_release)

theorem mono_rawMut {t p : Tag} {lo hi : Nat} :
    Mono (touch lo hi ((traced R).rawMut t p) : M (World (traced R) N) ε _) :=
  mono_silent fun _ _ h => map_mark h
macro_rules | `(tactic| mono) => `(tactic| with_reducible exact mono_rawMut)

theorem mono_retagShared {t : Tag} {lo hi : Nat} {p : Bool} :
    Mono (retagShared t lo hi p : M (World (traced R) N) ε _) :=
  mono_bind mono_fresh fun _ => mono_bind (mono_silent fun _ _ h => map_mark h) fun _ => mono_pure
macro_rules | `(tactic| mono) => `(tactic| with_reducible exact mono_retagShared)

theorem mono_retagUnique {t : Tag} {lo hi : Nat} {p : Bool} :
    Mono (retagUnique t lo hi p : M (World (traced R) N) ε _) :=
  mono_bind mono_fresh fun _ => mono_bind (mono_silent fun _ _ h => map_mark h) fun _ => mono_pure
macro_rules | `(tactic| mono) => `(tactic| with_reducible exact mono_retagUnique)

theorem mono_retagTwoPhase {t : Tag} : Mono (retagTwoPhase t : M (World (traced R) N) ε _) :=
  mono_bind mono_fresh fun _ => mono_bind (mono_silent fun _ _ h => map_mark h) fun _ => mono_pure
macro_rules | `(tactic| mono) => `(tactic| with_reducible exact mono_retagTwoPhase)

/-- What `protecting` does after its body. -/
theorem protecting_inv {t : Tag} {lo hi : Nat} {m : M (World R N) ε α} {w w' : World R N} {r : Res ε α}
    (e : protecting t lo hi m w = (r, w')) (hr : Settled r) :
    ∃ w1, m w = (r, w1) ∧ (release t lo hi : M (World R N) Empty Unit) w1 = (.ok (), w') := by
  cases hm : m w with
  | mk r0 w1 =>
    unfold protecting at e
    rw [hm] at e
    cases r0 with
    | ub => cases e; exact absurd rfl hr.1
    | diverge => cases e; exact absurd rfl hr.2
    | _ =>
      dsimp only at e
      split at e
      next h => cases e; exact ⟨_, rfl, h⟩
      next => cases e; exact absurd rfl hr.1

theorem mono_protecting {t : Tag} {lo hi : Nat} {m : M (World (traced R) N) ε α} (h : Mono m) :
    Mono (protecting t lo hi m) := by
  intro w r w' e hr l hl
  obtain ⟨w1, h1, h2⟩ := protecting_inv e hr
  exact mono_release _ _ _ h2 settled_ok l (h _ _ _ h1 hr l hl)

theorem mono_passShared {t : Tag} {lo hi : Nat} {body : Tag → M (World (traced R) N) ε α} (h : ∀ u, Mono (body u)) :
    Mono (passShared t lo hi body) :=
  mono_bind mono_retagShared fun u => mono_protecting (h u)
macro_rules | `(tactic| mono) => `(tactic| (with_reducible refine mono_passShared fun _ => ?_) <;> mono)

theorem mono_passUnique {t : Tag} {lo hi : Nat} {body : Tag → M (World (traced R) N) ε α} (h : ∀ u, Mono (body u)) :
    Mono (passUnique t lo hi body) :=
  mono_bind mono_retagUnique fun u => mono_protecting (h u)
macro_rules | `(tactic| mono) => `(tactic| (with_reducible refine mono_passUnique fun _ => ?_) <;> mono)

theorem mono_callShared {self : Tag} {body : Tag → M (World (traced R) N) ε α} (h : ∀ u, Mono (body u)) :
    Mono (callShared self body) :=
  mono_bind mono_retagShared fun _ => mono_passShared h
macro_rules | `(tactic| mono) => `(tactic| (with_reducible refine mono_callShared fun _ => ?_) <;> mono)

theorem mono_callMut {self : Tag} {body : Tag → M (World (traced R) N) ε α} (h : ∀ u, Mono (body u)) :
    Mono (callMut self body) :=
  mono_bind mono_retagTwoPhase fun _ => mono_passUnique h
macro_rules | `(tactic| mono) => `(tactic| (with_reducible refine mono_callMut fun _ => ?_) <;> mono)

theorem mono_callRef {self : Tag} {body : Tag → M (World (traced R) N) ε (Tag × Nat)} (h : ∀ u, Mono (body u)) :
    Mono (callRef self body) :=
  mono_bind (mono_callShared h) fun _ => mono_bind mono_retagShared fun _ => mono_pure
macro_rules | `(tactic| mono) => `(tactic| (with_reducible refine mono_callRef fun _ => ?_) <;> mono)

theorem mono_through {t : Tag} {lo hi lo' hi' : Nat} : Mono (through t lo hi lo' hi' : M (World (traced R) N) ε _) := by
  unfold through; mono
macro_rules | `(tactic| mono) => `(tactic| with_reducible exact mono_through)

theorem mono_len {self : Tag} : Mono (len self : M (World (traced R) N) ε _) := by
  unfold len; mono
macro_rules | `(tactic| mono) => `(tactic| with_reducible exact mono_len)

theorem mono_asRefBytes {self : Tag} : Mono (asRefBytes self : M (World (traced R) N) ε _) := by
  unfold asRefBytes; mono
macro_rules | `(tactic| mono) => `(tactic| with_reducible exact mono_asRefBytes)

theorem mono_asRefStr {self : Tag} : Mono (asRefStr self : M (World (traced R) N) ε _) := by
  unfold asRefStr; mono
macro_rules | `(tactic| mono) => `(tactic| with_reducible exact mono_asRefStr)

theorem mono_asStr {self : Tag} : Mono (asStr self : M (World (traced R) N) ε _) := by
  unfold asStr; mono
macro_rules | `(tactic| mono) => `(tactic| with_reducible exact mono_asStr)

theorem mono_readBoundary {t : Tag} {lo n idx : Nat} : Mono (readBoundary t lo n idx : M (World (traced R) N) ε _) := by
  unfold readBoundary; mono
macro_rules | `(tactic| mono) => `(tactic| with_reducible exact mono_readBoundary)

theorem mono_isCharBoundary {self : Tag} {idx : Nat} : Mono (isCharBoundary self idx : M (World (traced R) N) _ _) := by
  unfold isCharBoundary; mono
macro_rules | `(tactic| mono) => `(tactic| with_reducible exact mono_isCharBoundary)

theorem mono_rangeEnd {self : Tag} {r : RangeB} : Mono (rangeEnd self r : M (World (traced R) N) ε _) := by
  unfold rangeEnd; split <;> mono
macro_rules | `(tactic| mono) => `(tactic| with_reducible exact mono_rangeEnd)

theorem mono_asMutPtr {self : Tag} : Mono (asMutPtr self : M (World (traced R) N) ε _) := by
  unfold asMutPtr; mono
macro_rules | `(tactic| mono) => `(tactic| with_reducible exact mono_asMutPtr)

theorem mono_moveTail {self p : Tag} {a b c : Nat} : Mono (moveTail self p a b c : M (World (traced R) N) _ _) := by
  unfold moveTail; mono
macro_rules | `(tactic| mono) => `(tactic| with_reducible exact mono_moveTail)

theorem mono_copyText {text p : Tag} {a : Nat} {str : Bytes} : Mono (copyText text p a str : M (World (traced R) N) _ _) := by
  unfold copyText; mono
macro_rules | `(tactic| mono) => `(tactic| with_reducible exact mono_copyText)

theorem mono_replaceRangeBody {self text : Tag} {r : RangeB} {str : Bytes} :
    Mono (replaceRangeBody self text r str : M (World (traced R) N) _ _) := by
  unfold replaceRangeBody; mono
macro_rules | `(tactic| mono) => `(tactic| with_reducible exact mono_replaceRangeBody)

theorem mono_replaceRangeOn {self text : Tag} {r : RangeB} {str : Bytes} :
    Mono (replaceRangeOn self text r str : M (World (traced R) N) _ _) := by
  unfold replaceRangeOn; mono
macro_rules | `(tactic| mono) => `(tactic| with_reducible exact mono_replaceRangeOn)

theorem mono_tryPushStr {self text : Tag} {str : Bytes} :
    Mono (tryPushStr self text str : M (World (traced R) N) _ _) := by
  unfold tryPushStr; mono
macro_rules | `(tactic| mono) => `(tactic| with_reducible exact mono_tryPushStr)

theorem mono_tryInsertStr {self text : Tag} {i : Nat} {str : Bytes} :
    Mono (tryInsertStr self text i str : M (World (traced R) N) _ _) := by
  unfold tryInsertStr; mono
macro_rules | `(tactic| mono) => `(tactic| with_reducible exact mono_tryInsertStr)

theorem mono_cut {t : Tag} {b : Bytes} {n : Nat} : Mono (cut t b n : M (World (traced R) N) ε _) := by
  unfold cut; mono
macro_rules | `(tactic| mono) => `(tactic| with_reducible exact mono_cut)

theorem mono_truncateStr {t : Tag} {b : Bytes} {n : Nat} : Mono (truncateStr t b n : M (World (traced R) N) ε _) := by
  unfold truncateStr; mono
macro_rules | `(tactic| mono) => `(tactic| with_reducible exact mono_truncateStr)

theorem mono_truncated {self t : Tag} {b : Bytes} : Mono (truncated self t b : M (World (traced R) N) ε _) := by
  unfold truncated; mono
macro_rules | `(tactic| mono) => `(tactic| with_reducible exact mono_truncated)

theorem mono_pushStrTruncate {self t : Tag} {b : Bytes} : Mono (pushStrTruncate self t b : M (World (traced R) N) ε _) := by
  unfold pushStrTruncate; mono
macro_rules | `(tactic| mono) => `(tactic| with_reducible exact mono_pushStrTruncate)

theorem mono_reading {t : Tag} : Mono (reading t : M (World (traced R) N) ε _) := by
  unfold reading; mono
macro_rules | `(tactic| mono) => `(tactic| with_reducible exact mono_reading)

/-! ### Bytes that are not read do not matter -/

/-- No byte of the text argument where `D` holds has been read. -/
def Hidden (D : Nat → Prop) (w : World (traced R) N) : Prop :=
  ∀ l, D l → (marks w (N + 1 + l)).read = false

theorem Mono.hidden {D : Nat → Prop} {m : M (World (traced R) N) ε α} (h : Mono m) {w w' : World (traced R) N}
    {r : Res ε α} (e : m w = (r, w')) (hr : Settled r) (hh : Hidden D w') : Hidden D w := by
  intro l hl
  rw [← Bool.not_eq_true]
  intro c
  have := h _ _ _ e hr _ c
  rw [hh l hl] at this
  exact nomatch this

/-- The same outcome, up to `V` for what is returned. -/
def SameOut (V : α → α → Prop) : Res ε α → Res ε α → Prop
  | .ok a, .ok b => V a b
  | .err e, .err e' => e = e'
  | .panic, .panic => True
  | _, _ => False

/-- The run of `m` ends like that of `m'`, if it does not read a byte where `D` holds. -/
def Like (D : Nat → Prop) (m m' : M (World (traced R) N) ε α) (V : α → α → Prop) : Prop :=
  ∀ w r w', m w = (r, w') → Settled r → Hidden D w' → ∃ r', m' w = (r', w') ∧ SameOut V r r'

variable {D : Nat → Prop} {V : α → α → Prop}

theorem sameOut_eq {r r' : Res ε α} (h : SameOut Eq r r') : r' = r := by
  cases r <;> cases r' <;> simp_all [SameOut]

theorem sameOut_refl {r : Res ε α} (hr : Settled r) (h : ∀ a, r = .ok a → V a a) : SameOut V r r := by
  cases r with
  | ok a => exact h a rfl
  | err => rfl
  | panic => trivial
  | ub => exact absurd rfl hr.1
  | diverge => exact absurd rfl hr.2

theorem like_refl {m : M (World (traced R) N) ε α} : Like D m m Eq :=
  fun _ _ _ e hr _ => ⟨_, e, sameOut_refl hr fun _ _ => rfl⟩

theorem like_lift {r : Res ε α} :
    Like D (M.lift r : M (World (traced R) N) ε α) (M.lift r) (fun a b => a = b ∧ r = .ok a) := by
  intro w r' w' e hr _
  cases e
  exact ⟨_, rfl, sameOut_refl hr fun a h => ⟨rfl, h⟩⟩

theorem like_lift' {r r' : Res ε α} (h : Settled r → SameOut V r r') :
    Like D (M.lift r : M (World (traced R) N) ε α) (M.lift r') V := by
  intro w x w' e hr _
  cases e
  exact ⟨_, rfl, h hr⟩

theorem like_mono {m m' : M (World (traced R) N) ε α} {V' : α → α → Prop} (h : Like D m m' V)
    (hV : ∀ a b, V a b → V' a b) : Like D m m' V' := by
  intro w r w' e hr hh
  obtain ⟨r', e', hs⟩ := h w r w' e hr hh
  refine ⟨r', e', ?_⟩
  cases r <;> cases r' <;> simp_all [SameOut]

theorem like_pure {a b : α} (h : V a b) : Like D (pure a : M (World (traced R) N) ε α) (pure b) V := by
  intro w r w' e _ _
  cases e
  exact ⟨_, rfl, h⟩

theorem like_bind {m m' : M (World (traced R) N) ε α} {f f' : α → M (World (traced R) N) ε β} {V' : β → β → Prop}
    (h : Like D m m' V) (hf : ∀ a b, V a b → Like D (f a) (f' b) V')
    (hm : ∀ a, Mono (f a) := by intro _; mono) : Like D (m >>= f) (m' >>= f') V' := by
  intro w r w' e hr hh
  show ∃ r', M.bind m' f' w = (r', w') ∧ _
  change M.bind m f w = _ at e
  unfold M.bind at e
  split at e
  next a w1 h1 =>
    obtain ⟨r1, e1, hs1⟩ := h _ _ _ h1 settled_ok ((hm a).hidden e hr hh)
    cases r1 with
    | ok b =>
      obtain ⟨r2, e2, hs2⟩ := hf a b hs1 _ _ _ e hr hh
      exact ⟨r2, by simp [M.bind, e1, e2], hs2⟩
    | _ => exact hs1.elim
  next x _ h1 =>
    cases e
    obtain ⟨r1, e1, hs1⟩ := h _ _ _ h1 settled_err hh
    cases r1 with
    | err => cases hs1; exact ⟨.err x, by simp only [M.bind, e1], rfl⟩
    | _ => exact hs1.elim
  next h1 =>
    cases e
    obtain ⟨r1, e1, hs1⟩ := h _ _ _ h1 settled_panic hh
    cases r1 with
    | panic => exact ⟨.panic, by simp only [M.bind, e1], trivial⟩
    | _ => exact hs1.elim
  next h1 => cases e; exact absurd rfl hr.1
  next h1 => cases e; exact absurd rfl hr.2

/-- The first step does not depend on the text. -/
theorem like_step {m : M (World (traced R) N) ε α} {f f' : α → M (World (traced R) N) ε β} {V' : β → β → Prop}
    (hf : ∀ a, Like D (f a) (f' a) V') (hm : ∀ a, Mono (f a) := by intro _; mono) :
    Like D (m >>= f) (m >>= f') V' :=
  like_bind like_refl (fun a _ h => h ▸ hf a) hm

theorem sameOut_mapErr {f : ε → ε'} {r r' : Res ε α} (h : SameOut V r r') : SameOut V (r.mapErr f) (r'.mapErr f) := by
  cases r <;> cases r' <;> simp_all [SameOut, Res.mapErr]

theorem like_mapErr {f : ε → ε'} {m m' : M (World (traced R) N) ε α} (h : Like D m m' V) :
    Like D (M.mapErr f m) (M.mapErr f m') V := by
  intro w r w' e hr hh
  cases e
  obtain ⟨r', e', hs⟩ := h w _ _ rfl (settled_mapErr hr) hh
  exact ⟨_, by simp only [M.mapErr, e'], sameOut_mapErr hs⟩

theorem like_tryM [ErrFrom ε ε'] {m m' : M (World (traced R) N) ε α} (h : Like D m m' V) :
    Like D (M.tryM m : M (World (traced R) N) ε' α) (M.tryM m') V :=
  like_mapErr h

theorem like_attempt {m m' : M (World (traced R) N) ε α} (h : Like D m m' Eq) :
    Like D (M.attempt m : M (World (traced R) N) ε' _) (M.attempt m') Eq := by
  intro w r w' e hr hh
  cases e
  obtain ⟨r', e', hs⟩ := h w _ _ rfl (settled_attempt hr) hh
  cases sameOut_eq hs
  exact ⟨_, by simp only [M.attempt, e'], sameOut_refl hr fun _ _ => rfl⟩

theorem like_protecting {t : Tag} {lo hi : Nat} {m m' : M (World (traced R) N) ε α} (h : Like D m m' V) :
    Like D (protecting t lo hi m) (protecting t lo hi m') V := by
  intro w r w' e hr hh
  obtain ⟨w1, h1, h2⟩ := protecting_inv e hr
  obtain ⟨r', e', hs⟩ := h _ _ _ h1 hr (mono_release.hidden h2 settled_ok hh)
  have hr' : Settled r' := by cases r <;> cases r' <;> first | exact hs.elim | exact ⟨nofun, nofun⟩
  exact ⟨r', protecting_run e' hr' h2, hs⟩

theorem like_passShared {t : Tag} {lo hi : Nat} {f f' : Tag → M (World (traced R) N) ε α}
    (h : ∀ u, Like D (f u) (f' u) V) (hm : ∀ u, Mono (f u) := by intro _; mono) :
    Like D (passShared t lo hi f) (passShared t lo hi f') V :=
  like_step (fun u => like_protecting (h u)) fun u => mono_protecting (hm u)

theorem like_passUnique {t : Tag} {lo hi : Nat} {f f' : Tag → M (World (traced R) N) ε α}
    (h : ∀ u, Like D (f u) (f' u) V) (hm : ∀ u, Mono (f u) := by intro _; mono) :
    Like D (passUnique t lo hi f) (passUnique t lo hi f') V :=
  like_step (fun u => like_protecting (h u)) fun u => mono_protecting (hm u)

theorem like_callMut {t : Tag} {f f' : Tag → M (World (traced R) N) ε α}
    (h : ∀ u, Like D (f u) (f' u) V) (hm : ∀ u, Mono (f u) := by intro _; mono) :
    Like D (callMut t f) (callMut t f') V :=
  like_step (fun _ => like_passUnique h hm) fun _ => mono_passUnique hm

theorem like_readAt {t : Tag} {hi : Nat} :
    Like D (readAt t (N + 1) hi : M (World (traced R) N) ε _) (readAt t (N + 1) hi)
      (fun _ _ => ∀ l, N + 1 + l < hi → ¬ D l) := by
  intro w r w' e hr hh
  refine ⟨_, e, sameOut_refl hr fun _ _ l hl hd => ?_⟩
  obtain ⟨-, -, -, h1, -, -⟩ := touch_eq e hr
  have h2 := map_mark (h1 (N + 1 + l) (by omega) hl)
  have h3 := hh l hd
  rw [show marks w' (N + 1 + l) = (w'.mem (N + 1 + l)).2 from rfl, h2] at h3
  exact nomatch h3

theorem like_readBoundary {t : Tag} {n idx : Nat} :
    Like D (readBoundary t (N + 1) n idx : M (World (traced R) N) ε _) (readBoundary t (N + 1) n idx)
      (fun _ _ => idx ≠ 0 → idx < n → ¬ D idx) := by
  refine like_passShared fun u => ?_
  split
  next h =>
    intro w r w' e hr hh
    refine ⟨_, e, sameOut_refl hr fun _ _ _ _ hd => ?_⟩
    obtain ⟨-, -, -, h1, -, -⟩ := touch_eq e hr
    have h2 := map_mark (h1 (N + 1 + idx) (by omega) (by omega))
    have h3 := hh idx hd
    rw [show marks w' (N + 1 + idx) = (w'.mem (N + 1 + idx)).2 from rfl, h2] at h3
    exact nomatch h3
  next h => exact like_pure fun h0 h1 => absurd ⟨h0, h1⟩ h

/-- Texts of the same length that agree where `D` does not hold. -/
def Agree (D : Nat → Prop) (b b' : Bytes) : Prop := b'.length = b.length ∧ ∀ l, ¬ D l → b'[l]? = b[l]?

theorem Agree.eq {b b' : Bytes} (h : Agree D b b') (hd : ∀ l, l < b.length → ¬ D l) : b' = b := by
  refine List.ext_getElem? fun l => ?_
  by_cases hl : l < b.length
  · exact h.2 l (hd l hl)
  · have := h.1
    rw [List.getElem?_eq_none (by omega), List.getElem?_eq_none (by omega)]

theorem Agree.isEmpty {b b' : Bytes} (h : Agree D b b') : b'.isEmpty = b.isEmpty := by
  have := h.1
  cases b <;> cases b' <;> simp_all

theorem Agree.take {b b' : Bytes} (h : Agree D b b') (n : Nat) : Agree D (b.take n) (b'.take n) := by
  refine ⟨by simp [h.1], fun l hl => ?_⟩
  rw [List.getElem?_take, List.getElem?_take, h.2 l hl]

theorem like_copyText {text p : Tag} {a : Nat} {b b' : Bytes} (h : Agree D b b') :
    Like D (copyText text p a b : M (World (traced R) N) _ _) (copyText text p a b') Eq := by
  unfold copyText
  rw [h.isEmpty, h.1]
  split
  · refine like_step fun q => like_step fun s => ?_
    refine like_bind (V := fun x y => x = s.array.take a ++ b ++ s.array.drop (a + b.length) ∧
      y = s.array.take a ++ b' ++ s.array.drop (a + b.length)) (like_lift' ?_) ?_
    · unfold memCopyFrom
      have h1 := h.1
      intro hs
      split at hs
      next c => 
        rw [if_pos c, if_pos ⟨by omega, c.2⟩]
        exact ⟨by rw [List.take_length], by rw [← h1, List.take_length]⟩
      next => exact absurd rfl hs.1
    · rintro x y ⟨hx, hy⟩
      refine like_bind like_readAt fun _ _ hd => ?_
      have : b' = b := h.eq fun l hl => hd l (by omega)
      subst this
      rw [hx, hy]
      exact like_refl
  · exact like_refl

theorem like_replaceRangeBody {self text : Tag} {r : RangeB} {b b' : Bytes} (h : Agree D b b') :
    Like D (replaceRangeBody self text r b : M (World (traced R) N) _ _) (replaceRangeBody self text r b') Eq := by
  unfold replaceRangeBody
  rw [h.isEmpty, h.1]
  refine like_step fun stop => ?_
  split
  · exact like_refl
  · iterate 16 refine like_step fun _ => ?_
    exact like_bind (like_copyText h) fun _ _ _ => like_refl

theorem like_replaceRangeOn {self text : Tag} {r : RangeB} {b b' : Bytes} (h : Agree D b b') :
    Like D (replaceRangeOn self text r b : M (World (traced R) N) _ _) (replaceRangeOn self text r b') Eq := by
  unfold replaceRangeOn
  rw [h.1]
  exact like_passShared fun _ => like_step fun _ => like_step fun _ => like_replaceRangeBody h

theorem like_tryPushStr {self text : Tag} {b b' : Bytes} (h : Agree D b b') :
    Like D (tryPushStr self text b : M (World (traced R) N) _ _) (tryPushStr self text b') Eq := by
  unfold tryPushStr
  rw [h.1]
  exact like_passShared fun _ => like_step fun _ => like_mapErr <| like_callMut fun _ => like_replaceRangeOn h

theorem like_tryInsertStr {self text : Tag} {i : Nat} {b b' : Bytes} (h : Agree D b b') :
    Like D (tryInsertStr self text i b : M (World (traced R) N) _ _) (tryInsertStr self text i b') Eq := by
  unfold tryInsertStr
  rw [h.1]
  exact like_passShared fun _ => like_step fun _ => like_step fun _ => like_callMut fun _ => like_replaceRangeOn h

theorem like_writeStr {self text : Tag} {b b' : Bytes} (h : Agree D b b') :
    Like D (writeStr self text b : M (World (traced R) N) _ _) (writeStr self text b') Eq := by
  unfold writeStr
  rw [h.1]
  exact like_passShared fun _ => like_mapErr <| like_callMut fun _ => like_tryPushStr h

theorem like_cut {t : Tag} {b b' : Bytes} {n : Nat} (h : Agree D b b')
    (hb : Str.isCharBoundary b n → Str.isCharBoundary b' n) :
    Like D (cut t b n : M (World (traced R) N) ε _) (cut t b' n) (fun x y => x.1 = y.1 ∧ Agree D x.2 y.2) := by
  unfold cut
  rw [h.1]
  refine like_bind (V := Agree D) (like_lift' ?_) fun x y hxy => ?_
  · unfold Str.getUnchecked
    intro hs
    split at hs
    next c =>
      rw [if_pos c, if_pos ⟨c.1, by rw [h.1]; exact c.2.1, isCharBoundary_zero _, hb c.2.2.2⟩]
      exact h.take _
    next => exact absurd rfl hs.1
  · exact like_step fun _ => like_pure ⟨rfl, hxy⟩

theorem Agree.isCharBoundary {b b' : Bytes} (h : Agree D b b') {n : Nat} (hn : n ≠ 0 → n < b.length → ¬ D n) :
    Str.isCharBoundary b' n = Str.isCharBoundary b n := by
  unfold Str.isCharBoundary
  rw [h.1]
  by_cases h0 : n = 0
  · simp [h0]
  by_cases hl : b.length ≤ n
  · simp [hl]
  · rw [h.2 n (hn h0 (by omega))]

theorem like_truncateStr {t : Tag} {b : Bytes} {w' : List Char} {n : Nat} (h : Agree D b (utf8 w')) :
    Like D (truncateStr t b n : M (World (traced R) N) ε _) (truncateStr t (utf8 w') n)
      (fun x y => x.1 = y.1 ∧ Agree D x.2 y.2) := by
  unfold truncateStr
  rw [h.1]
  refine like_passShared fun t => ?_
  split
  next => exact like_step fun _ => like_pure ⟨rfl, h⟩
  next hn =>
  refine like_bind like_readBoundary fun _ _ h0 => ?_
  have e0 := h.isCharBoundary h0
  rw [e0]
  split
  next hb => exact like_cut h fun _ => by rw [e0]; exact hb
  next n0 =>
  refine like_bind like_lift ?_
  rintro n1 _ ⟨rfl, k1⟩
  refine like_bind like_readBoundary fun _ _ h1 => ?_
  have e1 := h.isCharBoundary h1
  rw [e1]
  split
  next hb => exact like_cut h fun _ => by rw [e1]; exact hb
  next n1' =>
  refine like_bind like_lift ?_
  rintro n2 _ ⟨rfl, k2⟩
  refine like_bind like_readBoundary fun _ _ h2 => ?_
  have e2 := h.isCharBoundary h2
  rw [e2]
  split
  next hb => exact like_cut h fun _ => by rw [e2]; exact hb
  next n2' =>
  refine like_bind like_lift ?_
  rintro n3 _ ⟨rfl, k3⟩
  refine like_cut h fun _ => ?_
  have sub : ∀ {x y : Nat}, ¬ Str.isCharBoundary b x = true → (subUsize x 1 : Res ε Nat) = .ok y → x = y + 1 := by
    intro x y hx hy
    have : 1 ≤ x := by
      rcases Nat.eq_zero_or_pos x with rfl | h
      · exact absurd (isCharBoundary_zero _) hx
      · exact h
    rw [subUsize_ok this] at hy
    cases hy
    omega
  have s0 := sub n0 k1
  have s1 := sub n1' k2
  have s2 := sub n2' k3
  have hlen : ¬ byteLen w' ≤ n := by
    have := h.1
    simp at this
    omega
  have hf := longestFit_takeFit n w'
  have h4 := hf.lt_add_four (by omega)
  have hle := byteLen_takeFit_le n w'
  have hb := hf.isBoundary
  rw [← isCharBoundary_utf8] at hb
  rw [isCharBoundary_utf8]
  have hne : ∀ k, ¬ Str.isCharBoundary b k = true → Str.isCharBoundary (utf8 w') k = Str.isCharBoundary b k →
      k ≠ byteLen (takeFit n w') := by
    rintro k hk ek rfl
    rw [← ek] at hk
    exact hk hb
  have a0 := hne _ n0 e0
  have a1 := hne _ n1' e1
  have a2 := hne _ n2' e2
  have : n3 = byteLen (takeFit n w') := by omega
  rw [this]
  exact hf.isBoundary

theorem like_truncated {self t : Tag} {b : Bytes} {w' : List Char} (h : Agree D b (utf8 w')) :
    Like D (truncated self t b : M (World (traced R) N) ε _) (truncated self t (utf8 w'))
      (fun x y => x.1 = y.1 ∧ Agree D x.2 y.2) := by
  unfold truncated
  rw [h.1]
  refine like_step fun _ => like_step fun _ => like_step fun _ => ?_
  refine like_bind (like_truncateStr h) ?_
  rintro ⟨a, x⟩ ⟨_, y⟩ ⟨rfl, hxy⟩
  dsimp only at hxy ⊢
  rw [hxy.1]
  exact like_step fun _ => like_pure ⟨rfl, hxy⟩

theorem like_pushStrTruncate {self t : Tag} {b : Bytes} {w' : List Char} (h : Agree D b (utf8 w')) :
    Like D (pushStrTruncate self t b : M (World (traced R) N) ε _) (pushStrTruncate self t (utf8 w')) Eq := by
  unfold pushStrTruncate
  rw [h.1]
  refine like_passShared fun _ => like_step fun _ => like_bind (like_truncated h) ?_
  rintro ⟨a, x⟩ ⟨_, y⟩ ⟨rfl, hxy⟩
  exact like_bind (like_attempt (like_passUnique fun _ => like_tryPushStr hxy)) fun _ _ _ => like_refl

theorem like_insertStrTruncate {self t : Tag} {i : Nat} {b : Bytes} {w' : List Char} (h : Agree D b (utf8 w')) :
    Like D (insertStrTruncate self t i b : M (World (traced R) N) _ _) (insertStrTruncate self t i (utf8 w')) Eq := by
  unfold insertStrTruncate
  rw [h.1]
  refine like_passShared fun _ => like_step fun _ => like_bind (like_truncated h) ?_
  rintro ⟨a, x⟩ ⟨_, y⟩ ⟨rfl, hxy⟩
  exact like_passUnique fun _ => like_tryInsertStr hxy

/-! ### Constructors and iterators -/

theorem like_weaken {D' : Nat → Prop} {m m' : M (World (traced R) N) ε α} (h : Like D' m m' V)
    (hD : ∀ l, D' l → D l) : Like D m m' V :=
  fun w r w' e hr hh => h w r w' e hr fun l hl => hh l (hD l hl)

/-- The world in which the body of `withLocal` runs. -/
def inner (init : ArrayString N) (lo hi : Nat) (w : World R N) : World R N where
  str := init
  mem l := if l ≤ N then R.alloc w.next
    else if l < N + 1 + (hi - lo) then w.mem (lo + (l - (N + 1))) else R.empty
  next := w.next + 1

/-- The world after `withLocal`. -/
def outer (lo hi : Nat) (w v : World R N) : World R N where
  str := w.str
  mem l := if lo ≤ l ∧ l < hi then v.mem (N + 1 + (l - lo)) else w.mem l
  next := max w.next v.next

theorem withLocal_run {init : ArrayString N} {lo hi : Nat} {body : Tag → M (World R N) ε α} {w : World R N} :
    withLocal init lo hi body w = ((body w.next (inner init lo hi w)).1 >>= fun a =>
      .ok (a, (body w.next (inner init lo hi w)).2.str), outer lo hi w (body w.next (inner init lo hi w)).2) := rfl

theorem settled_pair {β : Type} {r : Res ε α} {b : β} (h : Settled (r >>= fun a => .ok (a, b))) : Settled r := by
  cases r with
  | ok => exact settled_ok
  | err => exact settled_err
  | panic => exact settled_panic
  | ub => exact absurd rfl h.1
  | diverge => exact absurd rfl h.2

theorem mono_withLocal {init : ArrayString N} {lo hi : Nat} {body : Tag → M (World (traced R) N) ε α}
    (h : ∀ u, Mono (body u)) : Mono (withLocal init lo hi body) := by
  intro w r w' e hr l hl
  rw [withLocal_run] at e
  cases e
  have hs := settled_pair hr
  have key := h w.next (inner init lo hi w) _ _ rfl hs
  simp only [marks, outer]
  split
  next c =>
    refine key _ ?_
    simp only [marks, inner]
    rw [if_neg (by omega), if_pos (by omega), show lo + (N + 1 + (l - lo) - (N + 1)) = l by omega]
    exact hl
  next => exact hl
macro_rules | `(tactic| mono) => `(tactic| (with_reducible refine mono_withLocal fun _ => ?_) <;> mono)

theorem mono_withNew {lo hi : Nat} {body : Tag → M (World (traced R) N) ε α}
    (h : ∀ u, Mono (body u)) : Mono (withNew lo hi body) := mono_withLocal h
macro_rules | `(tactic| mono) => `(tactic| (with_reducible refine mono_withNew fun _ => ?_) <;> mono)

theorem like_withLocal {init : ArrayString N} {n : Nat} {f f' : Tag → M (World (traced R) N) ε α}
    (hD : ∀ l, D l → l < n) (h : ∀ u, Like D (f u) (f' u) Eq) :
    Like D (withLocal init (N + 1) (N + 1 + n) f) (withLocal init (N + 1) (N + 1 + n) f') Eq := by
  intro w r w' e hr hh
  rw [withLocal_run] at e
  cases e
  have hs := settled_pair hr
  obtain ⟨r', e', hs'⟩ := h w.next _ _ _ rfl hs (by
    intro l hl
    have h1 := hh l hl
    have h2 := hD l hl
    simp only [marks, outer] at h1
    rw [if_pos (by omega), show N + 1 + (N + 1 + l - (N + 1)) = N + 1 + l by omega] at h1
    exact h1)
  refine ⟨_, ?_, sameOut_refl hr fun _ _ => rfl⟩
  rw [withLocal_run, e', sameOut_eq hs']

theorem like_withNew {n : Nat} {f f' : Tag → M (World (traced R) N) ε α}
    (hD : ∀ l, D l → l < n) (h : ∀ u, Like D (f u) (f' u) Eq) :
    Like D (withNew (N + 1) (N + 1 + n) f) (withNew (N + 1) (N + 1 + n) f') Eq :=
  like_withLocal hD h

theorem like_tryFromStr {t : Tag} {b b' : Bytes} (hD : ∀ l, D l → l < b.length) (h : Agree D b b') :
    Like D (tryFromStr t (N + 1) (N + 1 + b.length) b : M (World (traced R) N) _ _)
      (tryFromStr t (N + 1) (N + 1 + b.length) b') Eq :=
  like_passShared fun _ => like_bind (like_withNew hD fun _ => like_callMut fun _ => like_tryPushStr h)
    fun _ _ h => h ▸ like_refl

theorem like_fromStrTruncate {t : Tag} {b : Bytes} {w' : List Char} (hD : ∀ l, D l → l < b.length)
    (h : Agree D b (utf8 w')) :
    Like D (fromStrTruncate t b : M (World (traced R) N) ε _) (fromStrTruncate t (utf8 w')) Eq := by
  unfold fromStrTruncate
  rw [h.1]
  exact like_passShared fun _ => like_bind (like_withNew hD fun _ => like_callMut fun _ => like_pushStrTruncate h)
    fun _ _ h => h ▸ like_refl

theorem mono_addTo {s : ArrayString N} {t : Tag} {b : Bytes} :
    Mono (addTo s t b : M (World (traced R) N) ε _) := by
  unfold addTo; mono
macro_rules | `(tactic| mono) => `(tactic| with_reducible exact mono_addTo)

theorem like_add {self t : Tag} {b : Bytes} {w' : List Char} (hD : ∀ l, D l → l < b.length)
    (h : Agree D b (utf8 w')) :
    Like D (add self t b : M (World (traced R) N) ε _) (add self t (utf8 w')) Eq := by
  refine like_step fun _ => like_step fun s => ?_
  unfold addTo
  rw [h.1]
  exact like_passShared fun _ => like_bind (like_withLocal hD fun _ => like_callMut fun _ => like_pushStrTruncate h)
    fun _ _ h => h ▸ like_refl

theorem OtherItems.map {P : α → α → Prop} {P' : β → β → Prop} {f : α → β} (hf : ∀ a a', P a a' → P' (f a) (f a'))
    {l l' : Script α} (h : OtherItems P l l') : OtherItems P' (l.map (Option.map f)) (l'.map (Option.map f)) := by
  induction h with
  | nil => exact .nil
  | panic _ ih => exact .panic ih
  | item h _ ih => exact .item (hf _ _ h) ih

theorem OtherItems.widest {P : α → α → Prop} {size : α → Nat} (hs : ∀ a a', P a a' → size a' = size a)
    {l l' : Script α} (h : OtherItems P l l') : widest size l' = widest size l := by
  induction h with
  | nil => rfl
  | panic _ ih => exact ih
  | item h _ ih => simp only [Borrow.widest, ih, hs _ _ h]

theorem mono_feed {body : α → M (World (traced R) N) ε Bool} (h : ∀ a, Mono (body a)) (l : Script α) :
    Mono (feed body l) := by
  induction l with
  | nil => exact mono_pure
  | cons a l ih =>
    cases a with
    | none => exact mono_lift
    | some a =>
      refine mono_bind (h a) fun c => ?_
      split
      · exact ih
      · exact mono_pure

theorem like_feed {P : α → α → Prop} {body : α → M (World (traced R) N) ε Bool} (hm : ∀ a, Mono (body a))
    (hb : ∀ a a', P a a' → Like D (body a) (body a') Eq) {l l' : Script α} (h : OtherItems P l l') :
    Like D (feed body l) (feed body l') Eq := by
  induction h with
  | nil => exact like_refl
  | panic => exact like_refl
  | item h _ ih =>
    refine like_bind (hb _ _ h) (fun c _ e => ?_) fun c => ?_
    · subst e
      split
      · exact ih
      · exact like_refl
    · split
      · exact mono_feed hm _
      · exact mono_pure

theorem like_tryFromIterator {t : Tag} {l l' : Script Bytes} (hD : ∀ x, D x → x < widest List.length l)
    (h : OtherItems (Agree D) l l') :
    Like D (tryFromIterator t l : M (World (traced R) N) _ _) (tryFromIterator t l') Eq := by
  have hm : ∀ (u : Tag) (a : Bytes), Mono (do
      callMut u fun out => tryPushStr out t a
      pure true : M (World (traced R) N) _ _) := fun _ _ => by mono
  unfold tryFromIterator
  rw [h.widest fun _ _ h => h.1]
  exact like_bind (like_withNew hD fun u => like_feed (hm u)
    (fun _ _ h => like_bind (like_callMut fun _ => like_tryPushStr h) fun _ _ _ => like_refl) h)
    fun _ _ h => h ▸ like_refl

/-- What the two calls of `as_ref` give. -/
def AgreeTwice (D : Nat → Prop) (a a' : ArrayString.AsRefTwice) : Prop :=
  Agree D a.first a'.first ∧ ∃ w', a'.second = utf8 w' ∧ Agree D a.second (utf8 w')

theorem like_fromIteratorTruncate {t : Tag} {l l' : Script ArrayString.AsRefTwice}
    (hD : ∀ x, D x → x < widest (fun s => max s.first.length s.second.length) l)
    (h : OtherItems (AgreeTwice D) l l') :
    Like D (fromIteratorTruncate t l : M (World (traced R) N) ε _) (fromIteratorTruncate t l') Eq := by
  unfold fromIteratorTruncate
  rw [h.widest fun _ _ h => by obtain ⟨h1, w', h2, h3⟩ := h; rw [h2, h3.1, h1.1]]
  refine like_bind (like_withNew hD fun u => like_feed (fun a => ?_) (fun a a' h => ?_) h) fun _ _ h => h ▸ like_refl
  · refine mono_bind mono_retagTwoPhase fun _ => mono_bind mono_through fun _ => mono_bind
      (mono_attempt (mono_passUnique fun _ => mono_tryPushStr)) fun r => ?_
    split <;> mono
  · obtain ⟨h1, w', h2, h3⟩ := h
    rw [h2, h1.1]
    have hm : ∀ r : Except OutOfBounds Unit, Mono (match r with
        | .ok () => pure true
        | .error _ => do
          callMut u fun out => pushStrTruncate out t a.second
          pure false : M (World (traced R) N) ε Bool) := fun r => by split <;> mono
    refine like_step (fun _ => like_step (fun _ => ?_) fun _ => ?_) fun _ => ?_
    · refine like_bind (like_attempt (like_passUnique fun _ => like_tryPushStr h1)) (fun r _ e => ?_) hm
      subst e
      split
      · exact like_refl
      · exact like_bind (like_callMut fun _ => like_pushStrTruncate h3) fun _ _ _ => like_refl
    · exact mono_bind (by mono) hm
    · exact mono_bind (by mono) fun _ => mono_bind (by mono) hm

theorem mono_writeStr {self t : Tag} {b : Bytes} : Mono (writeStr self t b : M (World (traced R) N) _ _) := by
  unfold writeStr; mono
macro_rules | `(tactic| mono) => `(tactic| with_reducible exact mono_writeStr)

theorem mono_writeAll {self t : Tag} (l : List Bytes) : Mono (writeAll self t l : M (World (traced R) N) _ _) := by
  induction l with
  | nil => exact mono_pure
  | cons b l ih =>
    unfold writeAll
    dsimp only
    split
    · exact ih
    · exact mono_bind (by mono) fun _ => ih

theorem like_writeAll {self t : Tag} {l l' : List Bytes} (h : OtherItems (Agree D) (l.map some) (l'.map some)) :
    Like D (writeAll self t l : M (World (traced R) N) _ _) (writeAll self t l') Eq := by
  induction l generalizing l' with
  | nil =>
    cases l' with
    | nil => exact like_refl
    | cons => cases h
  | cons b l ih =>
    cases l' with
    | nil => cases h
    | cons b' l' =>
      cases h with
      | item h hl =>
        unfold writeAll
        dsimp only
        rw [h.isEmpty]
        split
        · exact ih hl
        · exact like_bind (like_callMut fun _ => like_writeStr h) (fun _ _ _ => ih hl) fun _ => mono_writeAll _

/-! ### Calls -/

theorem like_call [Verif.Kind ε] {m m' : M (World (traced R) N) ε α} {out : α → Out} (h : Like D m m' Eq) :
    Like D (call m out) (call m' out) Eq :=
  like_bind (like_mapErr h) fun _ _ e => e ▸ like_refl

theorem like_method [Verif.Kind ε] {self : Tag} {m m' : Tag → M (World (traced R) N) ε α} {out : α → Out}
    (h : ∀ u, Like D (m u) (m' u) Eq) (hm : ∀ u, Mono (m u) := by intro _; mono) :
    Like D (method self m out) (method self m' out) Eq :=
  like_call (like_callMut h hm)

theorem like_construct [Verif.Kind ε] {self : Tag} {m m' : M (World (traced R) N) ε (ArrayString N)}
    (h : Like D m m' Eq) : Like D (construct self m) (construct self m') Eq :=
  like_bind (like_mapErr h) fun _ _ e => e ▸ like_refl

theorem mono_withBuf {size : Nat} {body : Tag → M (World (traced R) N) ε α} (h : ∀ u, Mono (body u)) :
    Mono (withBuf size body) := by
  intro w r w' e hr l hl
  let v : World (traced R) N := {
    str := w.str
    mem := fun l => if l ≤ N then w.mem l else if l < N + 1 + size then (traced R).alloc w.next else (traced R).empty
    next := w.next + 1 }
  have e' : withBuf size body w = ((body w.next v).1, {
      str := (body w.next v).2.str
      mem := fun l => if l ≤ N then (body w.next v).2.mem l else w.mem l
      next := max w.next (body w.next v).2.next }) := rfl
  rw [e'] at e
  cases e
  simp only [marks]
  split
  next c =>
    refine h w.next v _ _ rfl hr l ?_
    simp only [marks, v, if_pos c]
    exact hl
  next => exact hl
macro_rules | `(tactic| mono) => `(tactic| (with_reducible refine mono_withBuf fun _ => ?_) <;> mono)

theorem like_extend {self : Tag} {m m' : M (World (traced R) N) ε (ArrayString N)} (h : Like D m m' Eq)
    (hm : Mono m) : Like D (extend self m) (extend self m') Eq :=
  like_step (fun _ => like_bind h fun _ _ e => e ▸ like_refl) fun _ => mono_bind hm (by intro _; mono)

theorem mono_fromIteratorTruncate {t : Tag} {l : Script ArrayString.AsRefTwice} :
    Mono (fromIteratorTruncate t l : M (World (traced R) N) ε _) := by
  refine mono_bind (mono_withNew fun _ => mono_feed (fun _ => ?_) _) fun _ => mono_pure
  refine mono_bind mono_retagTwoPhase fun _ => mono_bind mono_through fun _ => mono_bind
    (mono_attempt (mono_passUnique fun _ => mono_tryPushStr)) fun r => ?_
  split <;> mono

/-- The texts agree where `K` holds. -/
def Matches (K : Nat → Prop) (t t' : List Char) : Prop :=
  byteLen t' = byteLen t ∧ ∀ l, K l → (utf8 t')[l]? = (utf8 t)[l]?

theorem Matches.agree {K : Nat → Prop} {t t' : List Char} (h : Matches K t t') :
    Agree (fun l => ¬ K l) (utf8 t) (utf8 t') :=
  ⟨by simpa using h.1, fun l hl => h.2 l (Classical.not_not.1 hl)⟩

theorem Matches.agree' {K : Nat → Prop} {t t' : List Char} (h : Matches K t t') {n : Nat} (hn : (utf8 t).length ≤ n) :
    Agree (fun l => l < n ∧ ¬ K l) (utf8 t) (utf8 t') := by
  refine ⟨h.agree.1, fun l hl => ?_⟩
  by_cases hk : K l
  · exact h.2 l hk
  · have h1 := h.agree.1
    have h2 : n ≤ l := by
      rcases Nat.lt_or_ge l n with h | h
      · exact absurd ⟨h, hk⟩ hl
      · exact h
    rw [List.getElem?_eq_none (by omega), List.getElem?_eq_none (by omega)]

theorem OtherItems.bound {P P' : α → α → Prop} {size : α → Nat} {l l' : Script α} {n : Nat} (h : OtherItems P l l')
    (hn : Borrow.widest size l ≤ n) (hP : ∀ a a', size a ≤ n → P a a' → P' a a') : OtherItems P' l l' := by
  induction h with
  | nil => exact .nil
  | panic _ ih => exact .panic (ih hn)
  | item h _ ih =>
    simp only [Borrow.widest] at hn
    exact .item (hP _ _ (by omega) h) (ih (by omega))

theorem like_exec {caller arg : Tag} {K : Nat → Prop} {op op' : Op} (h : OtherText (Matches K) op op') :
    Like (fun l => ¬ K l) (exec caller arg op : M (World (traced R) N) _ _) (exec caller arg op') Eq := by
  have weak : ∀ {n : Nat} {ε : Type} {m m' : M (World (traced R) N) ε (ArrayString N)},
      Like (fun l => l < n ∧ ¬ K l) m m' Eq → Like (fun l => ¬ K l) m m' Eq :=
    fun h => like_weaken h fun _ h => h.2
  have twice : ∀ {l l' : Script (List Char × List Char)},
      OtherItems (fun p p' => Matches K p.1 p'.1 ∧ Matches K p.2 p'.2) l l' → ∀ {ε : Type},
      Like (fun l => ¬ K l)
        (fromIteratorTruncate arg (l.map (Option.map fun p => ⟨utf8 p.1, utf8 p.2⟩)) : M (World (traced R) N) ε _)
        (fromIteratorTruncate arg (l'.map (Option.map fun p => ⟨utf8 p.1, utf8 p.2⟩))) Eq := by
    intro l l' h ε
    refine weak (n := widest (fun s => max s.first.length s.second.length)
      (l.map (Option.map fun p => (⟨utf8 p.1, utf8 p.2⟩ : ArrayString.AsRefTwice))))
      (like_fromIteratorTruncate (fun _ h => h.1) ?_)
    have h' := h.map (f := fun p => (⟨utf8 p.1, utf8 p.2⟩ : ArrayString.AsRefTwice))
      (P' := fun a a' => ∃ t t' u u', a = ⟨utf8 t, utf8 u⟩ ∧ a' = ⟨utf8 t', utf8 u'⟩ ∧ Matches K t t' ∧ Matches K u u')
      fun a a' h => ⟨_, _, _, _, rfl, rfl, h⟩
    refine h'.bound (size := fun s => max s.first.length s.second.length) (Nat.le_refl _) ?_
    rintro a a' hs ⟨t, t', u, u', rfl, rfl, h1, h2⟩
    dsimp only at hs
    exact ⟨h1.agree' (by omega), u', rfl, h2.agree' (by omega)⟩
  have once : ∀ {l l' : Script (List Char)}, OtherItems (Matches K) l l' → ∀ {ε : Type},
      Like (fun l => ¬ K l)
        (fromIteratorTruncate arg (l.map (Option.map fun w => ⟨utf8 w, utf8 w⟩)) : M (World (traced R) N) ε _)
        (fromIteratorTruncate arg (l'.map (Option.map fun w => ⟨utf8 w, utf8 w⟩))) Eq := by
    intro l l' h ε
    have := twice (h.map (f := fun w => (w, w)) fun _ _ h => ⟨h, h⟩) (ε := ε)
    simpa [List.map_map, Function.comp_def, Option.map_map] using this
  cases h with
  | same => exact like_refl
  | tryFromStr h =>
    simp only [exec, h.agree.1]
    exact like_construct (weak (like_tryFromStr (fun _ h => h.1) (h.agree' (Nat.le_refl _))))
  | parse h =>
    simp only [exec, h.agree.1]
    exact like_construct (weak (like_tryFromStr (fun _ h => h.1) (h.agree' (Nat.le_refl _))))
  | fromStrTruncate h =>
    exact like_construct (weak (like_fromStrTruncate (fun _ h => h.1) (h.agree' (Nat.le_refl _))))
  | from_ h =>
    exact like_construct (weak (like_fromStrTruncate (fun _ h => h.1) (h.agree' (Nat.le_refl _))))
  | tryPushStr h => exact like_method fun _ => like_tryPushStr h.agree
  | pushStrTruncate h => exact like_method fun _ => like_pushStrTruncate h.agree
  | tryInsertStr h => exact like_method fun _ => like_tryInsertStr h.agree
  | insertStrTruncate h =>
    exact like_method (fun _ => like_insertStrTruncate h.agree) fun _ => by unfold insertStrTruncate; mono
  | replaceRange h => exact like_method fun _ => like_replaceRangeOn h.agree
  | add h => exact like_construct (weak (like_add (fun _ h => h.1) (h.agree' (Nat.le_refl _))))
  | writeStr h => exact like_method fun _ => like_writeStr h.agree
  | eqStr h =>
    simp only [exec, h.agree.1]
    refine like_call (like_bind (like_passShared fun _ => like_step fun _ => like_readAt) fun _ _ hd => ?_)
    rw [h.agree.eq fun l hl => hd l (by omega)]
    exact like_refl
  | tryFromIterator h =>
    refine like_construct (weak (like_tryFromIterator (fun _ h => h.1) ?_))
    have h' := h.map (f := utf8) (P' := fun a a' => ∃ t t', a = utf8 t ∧ a' = utf8 t' ∧ Matches K t t')
      fun a a' h => ⟨_, _, rfl, rfl, h⟩
    refine h'.bound (size := List.length) (Nat.le_refl _) ?_
    rintro a a' hs ⟨t, t', rfl, rfl, h1⟩
    exact h1.agree' hs
  | fromIteratorTruncate h => exact like_construct (twice h)
  | collectStrs h => exact like_construct (once h)
  | extendStrs h =>
    exact like_method (fun _ => like_extend (once h) mono_fromIteratorTruncate) fun _ =>
      mono_bind mono_retagTwoPhase fun _ => mono_bind mono_fromIteratorTruncate (by intro _; mono)
  | writeFmt h =>
    refine like_method (fun _ => like_callMut (fun _ => like_writeAll ?_) fun _ => mono_writeAll _)
      fun _ => mono_callMut fun _ => mono_writeAll _
    have := h.map (f := utf8) (P' := Agree fun l => ¬ K l) fun _ _ h => h.agree
    simpa [List.map_map, Function.comp_def] using this

end like
end Verif.Borrow
